import Verif.Kin.Robot
import Mathlib.Tactic

/-!
# What `from_urdf_file` builds

Lemmas for `KinProps`: the simplification of fixed joints preserves the poses of all links, the
breadth-first traversal reaches every joint once with parents first, and the caches contain the
path to the root.
-/

namespace Verif.Kin
open Verif.Geometry

/-- A legal URDF: distinct link names, at most one joint above a link, known links and joint types,
exactly one root and no cycle. -/
structure Urdf.WF (u : Urdf) : Prop where
  links_nodup : u.links.Nodup
  names_nodup : (u.joints.map UJoint.name).Nodup
  child_inj : ∀ i j : u.J, (u.jnt i).child = (u.jnt j).child → i = j
  parent_mem : ∀ j : u.J, (u.jnt j).parent ∈ u.links
  child_mem : ∀ j : u.J, (u.jnt j).child ∈ u.links
  supported : ∀ j : u.J, (u.jnt j).kind ≠ none
  root : ∃ r ∈ u.links, ∀ l ∈ u.links, (∀ j : u.J, (u.jnt j).child ≠ l) ↔ l = r
  acyclic : ∃ depth : String → ℕ, ∀ j : u.J, depth (u.jnt j).parent < depth (u.jnt j).child

namespace Build
variable {u : Urdf}

/-- The invariant of the simplification, for a ranking `d` of the links, poses `P` of the links and
motions `mot` of the joints. -/
structure Inv (d : String → ℕ) (P : String → SE3) (mot : u.J → SE3) (h : Heap u) : Prop where
  mem : ∀ l j, j ∈ h.children l ↔ h.parent j = l
  nodup : ∀ l, (h.children l).Nodup
  depth : ∀ j, d (h.parent j) < d (u.jnt j).child
  links : ∀ j, h.parent j ∈ u.links
  pose : ∀ j, P (u.jnt j).child = (P (h.parent j)).compose ((h.origin j).compose (mot j))
  rot : ∀ j, SO3.Valid (h.origin j).R

theorem compose_assoc (a b c : SE3) : (a.compose b).compose c = a.compose (b.compose c) := by
  simp only [SE3.compose, Matrix.mul_assoc, Matrix.mulVec_add, Matrix.mulVec_mulVec, add_assoc]

theorem compose_one (a : SE3) : a.compose SE3.one = a := by
  have : (![0, 0, 0] : V3) = 0 := by ext i; fin_cases i <;> rfl
  cases a
  simp [SE3.compose, SE3.one, this]

theorem one_compose (a : SE3) : SE3.one.compose a = a := by
  have : (![0, 0, 0] : V3) = 0 := by ext i; fin_cases i <;> rfl
  cases a
  simp [SE3.compose, SE3.one, this]

/-- The effect of the inner loop. -/
theorem foldl_moveSub (link : String) (j : u.J) :
    ∀ (subs : List u.J) (h : Heap u), subs.Nodup → j ∉ subs →
      (∀ k, (subs.foldl (moveSub u link j) h).parent k = if k ∈ subs then link else h.parent k) ∧
      (∀ k, (subs.foldl (moveSub u link j) h).origin k
        = if k ∈ subs then (h.origin j).compose (h.origin k) else h.origin k) ∧
      (∀ l, (subs.foldl (moveSub u link j) h).children l
        = if l = link then h.children link ++ subs else h.children l) := by
  intro subs
  induction subs with
  | nil =>
    intro h _ _
    refine ⟨by simp, by simp, fun l => ?_⟩
    by_cases hl : l = link <;> simp [hl]
  | cons k ks ih =>
    intro h hn hj
    obtain ⟨hk, hks⟩ := List.nodup_cons.mp hn
    obtain ⟨hjk, hjks⟩ : j ≠ k ∧ j ∉ ks := by simpa using hj
    obtain ⟨i1, i2, i3⟩ := ih (moveSub u link j h k) hks hjks
    simp only [List.foldl_cons]
    refine ⟨fun k' => ?_, fun k' => ?_, fun l => ?_⟩
    · rw [i1]
      by_cases h1 : k' ∈ ks
      · simp [h1]
      · by_cases h2 : k' = k
        · simp [h2, moveSub]
        · simp [h1, h2, moveSub]
    · rw [i2]
      by_cases h1 : k' ∈ ks
      · have h2 : k' ≠ k := fun e => hk (e ▸ h1)
        simp [h1, h2, hjk, moveSub]
      · by_cases h2 : k' = k
        · subst h2; simp [hk, moveSub]
        · simp [h1, h2, moveSub]
    · rw [i3]
      by_cases hl : l = link
      · simp [hl, moveSub]
      · simp [hl, moveSub]

section
variable {d : String → ℕ} {P : String → SE3} {mot : u.J → SE3}

/-- The effect of absorbing a fixed joint. -/
theorem absorb_spec {h : Heap u} (hi : Inv d P mot h) {link : String} {j : u.J}
    (hj : h.parent j = link) (hm : mot j = SE3.one) :
    Inv d P mot (absorb u link h j) ∧
    (absorb u link h j).children (u.jnt j).child = [] ∧
    (∀ l, (absorb u link h j).children l =
      if l = link then h.children link ++ h.children (u.jnt j).child
      else if l = (u.jnt j).child then [] else h.children l) := by
  have hne : (u.jnt j).child ≠ link := by
    intro e
    have := hi.depth j
    rw [hj, ← e] at this
    exact lt_irrefl _ this
  have hjs : j ∉ h.children (u.jnt j).child := by
    intro hc
    rw [hi.mem] at hc
    exact hne (hc.symm.trans hj)
  obtain ⟨e1, e2, e3⟩ := foldl_moveSub link j (h.children (u.jnt j).child)
    { h with children := Function.update h.children (u.jnt j).child [] }
    (hi.nodup _) hjs
  change ∀ k, (absorb u link h j).parent k = _ at e1
  change ∀ k, (absorb u link h j).origin k = _ at e2
  change ∀ l, (absorb u link h j).children l = _ at e3
  simp only at e1 e2 e3
  have e3' : ∀ l, (absorb u link h j).children l =
      if l = link then h.children link ++ h.children (u.jnt j).child
      else if l = (u.jnt j).child then [] else h.children l := by
    intro l
    rw [e3]
    by_cases h1 : l = link
    · simp [h1, Ne.symm hne]
    · by_cases h2 : l = (u.jnt j).child
      · simp [h2, hne]
      · simp [h1, h2]
  simp only [hi.mem] at e1 e2
  refine ⟨⟨?_, ?_, ?_, ?_, ?_, ?_⟩, by rw [e3']; simp [hne], e3'⟩
  · intro l k
    rw [e3', e1]
    by_cases h1 : l = link
    · subst h1
      simp only [if_true, List.mem_append, hi.mem]
      by_cases h2 : h.parent k = (u.jnt j).child
      · simp [h2]
      · simp [h2]
    · by_cases h2 : l = (u.jnt j).child
      · subst h2
        simp only [hne, if_false, if_true, List.not_mem_nil, false_iff]
        by_cases h3 : h.parent k = (u.jnt j).child
        · simp [h3, Ne.symm hne]
        · simp [h3]
      · simp only [h1, h2, if_false, hi.mem]
        by_cases h3 : h.parent k = (u.jnt j).child
        · simp [h3, Ne.symm h1, Ne.symm h2]
        · simp [h3]
  · intro l
    rw [e3']
    by_cases h1 : l = link
    · simp only [h1, if_true]
      refine List.Nodup.append (hi.nodup _) (hi.nodup _) ?_
      intro k h3 h4
      rw [hi.mem] at h3 h4
      exact hne (h4.symm.trans h3)
    · by_cases h2 : l = (u.jnt j).child
      · simp [h2, hne]
      · simp only [h1, h2, if_false]; exact hi.nodup _
  · intro k
    rw [e1]
    by_cases h1 : h.parent k = (u.jnt j).child
    · simp only [h1, if_true]
      have a := hi.depth j
      have b := hi.depth k
      rw [h1] at b
      rw [hj] at a
      exact a.trans b
    · simp only [h1, if_false]; exact hi.depth k
  · intro k
    rw [e1]
    by_cases h1 : h.parent k = (u.jnt j).child
    · simp only [h1, if_true]; rw [← hj]; exact hi.links j
    · simp only [h1, if_false]; exact hi.links k
  · intro k
    rw [e1, e2]
    by_cases h1 : h.parent k = (u.jnt j).child
    · simp only [h1, if_true]
      rw [hi.pose k, h1, hi.pose j, hm, compose_one, hj, compose_assoc, compose_assoc]
    · simp only [h1, if_false]; exact hi.pose k
  · intro k
    rw [e2]
    by_cases h1 : h.parent k = (u.jnt j).child
    · simp only [h1, if_true]; exact (hi.rot j).mul (hi.rot k)
    · simp only [h1, if_false]; exact hi.rot k

/-- The children of fixed joints of `l` have no children of their own. -/
def Flat (u : Urdf) (h : Heap u) (l : String) : Prop :=
  ∀ k ∈ h.children l, (u.jnt k).isFixed → h.children (u.jnt k).child = []

theorem simplifyLink_spec (hm : ∀ j : u.J, (u.jnt j).isFixed → mot j = SE3.one) (link : String) :
    ∀ (fuel i : ℕ) (h : Heap u), Inv d P mot h → u.joints.length + 1 ≤ fuel + i →
      (∀ k ∈ (h.children link).take i, (u.jnt k).isFixed → h.children (u.jnt k).child = []) →
      Inv d P mot (simplifyLink u link fuel i h) ∧
      Flat u (simplifyLink u link fuel i h) link ∧
      (∀ l, l ≠ link → (simplifyLink u link fuel i h).children l = h.children l ∨
        (simplifyLink u link fuel i h).children l = []) := by
  intro fuel
  induction fuel with
  | zero =>
    intro i h hi hf hdone
    refine ⟨hi, ?_, fun l _ => Or.inl rfl⟩
    intro k hk
    have hlen : (h.children link).length ≤ u.joints.length := by
      have := (hi.nodup link).length_le_card
      simpa using this
    refine hdone k ?_
    rwa [List.take_of_length_le (by omega)]
  | succ fuel ih =>
    intro i h hi hf hdone
    rw [simplifyLink]
    rcases hget : (h.children link)[i]? with _ | j
    · refine ⟨hi, ?_, fun l _ => Or.inl rfl⟩
      intro k hk
      refine hdone k ?_
      rwa [List.take_of_length_le (by simpa using hget)]
    · simp only
      have hjmem : j ∈ h.children link := List.mem_of_getElem? hget
      have htake : (h.children link).take (i + 1) = (h.children link).take i ++ [j] := by
        rw [List.take_add_one, hget]; rfl
      have hilt : i < (h.children link).length := by
        by_contra hc
        rw [List.getElem?_eq_none (by omega)] at hget
        cases hget
      by_cases hfix : (u.jnt j).isFixed
      · simp only [hfix, if_true]
        have hpar := (hi.mem link j).mp hjmem
        obtain ⟨a1, a2, a3⟩ := absorb_spec hi hpar (hm j hfix)
        have hlink : (absorb u link h j).children link
            = h.children link ++ h.children (u.jnt j).child := by rw [a3]; simp
        have hnoLink : ∀ k ∈ h.children link, (u.jnt k).child ≠ link := by
          intro k hk e
          have := hi.depth k
          rw [(hi.mem link k).mp hk, ← e] at this
          exact lt_irrefl _ this
        obtain ⟨b1, b2, b3⟩ := ih (i + 1) (absorb u link h j) a1 (by omega) (by
          intro k hk hkf
          rw [hlink, List.take_append_of_le_length (by omega), htake] at hk
          have hkl : k ∈ h.children link := by
            rcases List.mem_append.mp hk with hk | hk
            · exact List.mem_of_mem_take hk
            · rw [List.mem_singleton.mp hk]; exact hjmem
          rw [a3, if_neg (hnoLink k hkl)]
          split
          · rfl
          · rename_i hne
            rcases List.mem_append.mp hk with hk | hk
            · exact hdone k hk hkf
            · rw [List.mem_singleton.mp hk] at hne; exact absurd rfl hne)
        refine ⟨b1, b2, fun l hl => ?_⟩
        rcases b3 l hl with e | e
        · rw [e, a3, if_neg hl]
          split
          · exact Or.inr rfl
          · exact Or.inl rfl
        · exact Or.inr e
      · simp only [hfix]
        refine ih (i + 1) h hi (by omega) ?_
        intro k hk hkf
        rw [htake] at hk
        rcases List.mem_append.mp hk with hk | hk
        · exact hdone k hk hkf
        · rw [List.mem_singleton.mp hk] at hkf; exact absurd hkf hfix

theorem simplifyLink_nil (link : String) (fuel i : ℕ) (h : Heap u) (he : h.children link = []) :
    simplifyLink u link fuel i h = h := by
  cases fuel with
  | zero => rfl
  | succ f => rw [simplifyLink, he]; simp

theorem simplify_aux (hm : ∀ j : u.J, (u.jnt j).isFixed → mot j = SE3.one) :
    ∀ (ls : List String) (done : List String) (h : Heap u), Inv d P mot h →
      (∀ l ∈ done, Flat u h l) →
      let h' := ls.foldl (fun h link => simplifyLink u link (u.joints.length + 1) 0 h) h
      Inv d P mot h' ∧ ∀ l ∈ done ++ ls, Flat u h' l := by
  intro ls
  induction ls with
  | nil => intro done h hi hd; exact ⟨hi, by simpa using hd⟩
  | cons link ls ih =>
    intro done h hi hd
    simp only [List.foldl_cons]
    obtain ⟨a1, a2, a3⟩ := simplifyLink_spec hm link (u.joints.length + 1) 0 h hi (by omega)
      (by simp)
    have key := ih (done ++ [link]) _ a1 (by
      intro l hl
      by_cases e : l = link
      · rw [e]; exact a2
      have hl' : l ∈ done := by
        rcases List.mem_append.mp hl with h' | h'
        · exact h'
        · exact absurd (List.mem_singleton.mp h') e
      intro k hk hkf
      have hk0 : k ∈ h.children l := by
        rcases a3 l e with e' | e'
        · rwa [e'] at hk
        · rw [e'] at hk; simp at hk
      have hk1 := hd l hl' k hk0 hkf
      by_cases e2 : (u.jnt k).child = link
      · rw [e2] at hk1 ⊢
        rw [simplifyLink_nil _ _ _ _ hk1]; exact hk1
      · rcases a3 _ e2 with e' | e'
        · rw [e', hk1]
        · exact e')
    refine ⟨key.1, fun l hl => key.2 l (by simpa [List.append_assoc] using hl)⟩

/-- The result of `simplify`. -/
theorem simplify_spec (hm : ∀ j : u.J, (u.jnt j).isFixed → mot j = SE3.one) {h : Heap u}
    (hi : Inv d P mot h) :
    Inv d P mot (simplify u h) ∧ ∀ k : u.J, (u.jnt k).isFixed →
      (simplify u h).children (u.jnt k).child = [] := by
  obtain ⟨a, b⟩ := simplify_aux hm u.links [] h hi (by simp)
  refine ⟨a, fun k hk => ?_⟩
  exact b _ (by simpa using a.links k) k ((a.mem _ _).mpr rfl) hk

end

/-! ## The breadth-first traversal -/

/-- Every joint of the list comes after the joint above its parent link. -/
def ParentsFirst (h : Heap u) (root : String) (acc : List u.J) : Prop :=
  ∀ a j b, acc = a ++ j :: b → h.parent j = root ∨ ∃ k ∈ a, (u.jnt k).child = h.parent j

theorem ParentsFirst.snoc {h : Heap u} {root : String} {acc : List u.J} (hp : ParentsFirst h root acc)
    {j : u.J} (hj : h.parent j = root ∨ ∃ k ∈ acc, (u.jnt k).child = h.parent j) :
    ParentsFirst h root (acc ++ [j]) := by
  intro a k b he
  rcases List.eq_nil_or_concat b with rfl | ⟨b', x, rfl⟩
  · have := List.append_inj' he (by simp)
    obtain ⟨rfl, h2⟩ := this
    simp at h2
    rw [← h2]; exact hj
  · have he' : acc ++ [j] = (a ++ k :: b') ++ [x] := by simpa using he
    have := List.append_inj' he' (by simp)
    exact hp a k b' this.1

theorem bfs_spec {h : Heap u} {root : String} {d : String → ℕ} {P : String → SE3}
    {mot : u.J → SE3} (hi : Inv d P mot h)
    (hinj : ∀ i j : u.J, (u.jnt i).child = (u.jnt j).child → i = j)
    (hroot : ∀ j : u.J, (u.jnt j).child ≠ root) :
    ∀ (fuel : ℕ) (D queue acc : List u.J), acc = D.filter (fun j => !(u.jnt j).isFixed) →
      u.joints.length + 1 ≤ fuel + D.length → (D ++ queue).Nodup →
      (∀ j, j ∈ D ++ queue ↔ h.parent j = root ∨
        ∃ k ∈ acc, (u.jnt k).child = h.parent j) →
      ParentsFirst h root acc →
      ∃ D' : List u.J, bfs u h fuel queue acc = D'.filter (fun j => !(u.jnt j).isFixed) ∧ D'.Nodup ∧
        (∀ j, j ∈ D' ↔ h.parent j = root ∨
          ∃ k ∈ bfs u h fuel queue acc, (u.jnt k).child = h.parent j) ∧
        ParentsFirst h root (bfs u h fuel queue acc) := by
  intro fuel
  induction fuel with
  | zero =>
    intro D queue acc _ hf hn _ _
    have h1 := (hn.of_append_left).length_le_card
    simp at h1
    omega
  | succ fuel ih =>
    intro D queue acc hacc hf hn hiff hp
    cases queue with
    | nil =>
      refine ⟨D, ?_, by simpa using hn, ?_, ?_⟩ <;> rw [bfs]
      · exact hacc
      · simpa using hiff
      · exact hp
    | cons j queue =>
      have hD : D ++ j :: queue = (D ++ [j]) ++ queue := by simp
      rw [bfs]
      by_cases hfix : (u.jnt j).isFixed
      · simp only [hfix, if_true]
        refine ih (D ++ [j]) queue acc ?_ (by simp; omega) (hD ▸ hn) (hD ▸ hiff) hp
        rw [List.filter_append]; simp [hfix, hacc]
      · have hfix' : (u.jnt j).isFixed = false := by simpa using hfix
        simp only [hfix', Bool.false_eq_true, if_false]
        have hjacc : j ∉ acc := by
          intro hc
          rw [hacc] at hc
          have hjD := (List.mem_filter.mp hc).1
          exact (List.disjoint_of_nodup_append hn) hjD (by simp)
        refine ih (D ++ [j]) (queue ++ h.children (u.jnt j).child) (acc ++ [j]) ?_
          (by simp; omega) ?_ ?_ ?_
        · rw [List.filter_append]; simp [hfix', hacc]
        · rw [← List.append_assoc, ← hD]
          refine List.Nodup.append hn (hi.nodup _) ?_
          intro k hk1 hk2
          rw [hi.mem] at hk2
          rcases (hiff k).mp hk1 with e | ⟨k', hk', e⟩
          · exact hroot j (hk2.symm.trans e)
          · have := hinj k' j (e.trans hk2)
            exact hjacc (this ▸ hk')
        · intro k
          rw [← List.append_assoc, ← hD, List.mem_append, hiff, hi.mem]
          simp only [List.mem_append, List.mem_singleton]
          constructor
          · rintro ((h1 | ⟨k', h1, h2⟩) | h1)
            · exact Or.inl h1
            · exact Or.inr ⟨k', Or.inl h1, h2⟩
            · exact Or.inr ⟨j, Or.inr rfl, h1.symm⟩
          · rintro (h1 | ⟨k', h1 | h1, h2⟩)
            · exact Or.inl (Or.inl h1)
            · exact Or.inl (Or.inr ⟨k', h1, h2⟩)
            · subst h1; exact Or.inr h2.symm
        · exact hp.snoc ((hiff j).mp (by simp))

/-! ## The robot -/

/-- What the rest of the development needs to know about a robot. -/
structure Good (u : Urdf) (root : String) (r : Robot u) : Prop where
  root_mem : root ∈ u.links
  root_child : ∀ j : u.J, (u.jnt j).child ≠ root
  links_eq : r.links = root :: r.joints.map fun j => (u.jnt j).child
  joints_nodup : r.joints.Nodup
  joints_mem : ∀ j : u.J, j ∈ r.joints
  dof_iff : ∀ j : u.J, r.jid j < r.dof ↔ (u.jnt j).isFixed = false
  dof_le : r.dof ≤ r.joints.length
  parent_or : ∀ j : u.J, r.heap.parent j = root ∨ ∃ k, (u.jnt k).child = r.heap.parent j ∧
    r.jid k < r.jid j ∧ r.jid k < r.dof
  anc_root : r.anc root = [] ∧ r.ancJ root = []
  anc_child : ∀ j : u.J, r.anc (u.jnt j).child = r.anc (r.heap.parent j) ++ [r.heap.parent j] ∧
    r.ancJ (u.jnt j).child = if (u.jnt j).isFixed then r.ancJ (r.heap.parent j)
      else r.ancJ (r.heap.parent j) ++ [r.jid j]

theorem parentJoint_child (hinj : ∀ i j : u.J, (u.jnt i).child = (u.jnt j).child → i = j) (j : u.J) :
    parentJoint u (u.jnt j).child = some j := by
  unfold parentJoint
  rcases hf : (List.finRange u.joints.length).reverse.find?
    (fun k => decide ((u.jnt k).child = (u.jnt j).child)) with _ | k
  · have := List.find?_eq_none.mp hf j (by simp)
    simp at this
  · have := List.find?_some hf
    simp at this
    rw [hinj k j this]

theorem parentJoint_root {root : String} (hroot : ∀ j : u.J, (u.jnt j).child ≠ root) :
    parentJoint u root = none := by
  unfold parentJoint
  rw [List.find?_eq_none]
  intro j _
  simpa using hroot j

/-- The loop over the links that fills the caches. -/
theorem cache_spec (hinj : ∀ i j : u.J, (u.jnt i).child = (u.jnt j).child → i = j)
    {h : Heap u} {jid : u.J → ℕ} {root : String} (hroot : ∀ j : u.J, (u.jnt j).child ≠ root) :
    ∀ (post pre : List String) (c : Cache), (pre ++ post).Nodup →
      (∀ j a b, pre ++ post = a ++ (u.jnt j).child :: b → h.parent j ∈ a) →
      (∀ j : u.J, (u.jnt j).child ∈ pre →
        c.anc (u.jnt j).child = c.anc (h.parent j) ++ [h.parent j] ∧
        c.ancJ (u.jnt j).child = if (u.jnt j).isFixed then c.ancJ (h.parent j)
          else c.ancJ (h.parent j) ++ [jid j]) →
      c.anc root = [] ∧ c.ancJ root = [] →
      let c' := post.foldl (cacheStep u h jid) c
      (∀ j : u.J, (u.jnt j).child ∈ pre ++ post →
        c'.anc (u.jnt j).child = c'.anc (h.parent j) ++ [h.parent j] ∧
        c'.ancJ (u.jnt j).child = if (u.jnt j).isFixed then c'.ancJ (h.parent j)
          else c'.ancJ (h.parent j) ++ [jid j]) ∧
      c'.anc root = [] ∧ c'.ancJ root = [] := by
  intro post
  induction post with
  | nil => intro pre c _ _ hc hr; exact ⟨by simpa using hc, hr⟩
  | cons l post ih =>
    intro pre c hn hpar hc hr
    simp only [List.foldl_cons]
    have hassoc : pre ++ l :: post = (pre ++ [l]) ++ post := by simp
    have hlpre : l ∉ pre := fun hl => (List.disjoint_of_nodup_append hn) hl (by simp)
    have key := ih (pre ++ [l]) (cacheStep u h jid c l) (hassoc ▸ hn) (hassoc ▸ hpar) ?_ ?_
    · rw [hassoc]; exact key
    · intro j hj
      have hjp : ∀ a b, pre ++ l :: post = a ++ (u.jnt j).child :: b → h.parent j ∈ a :=
        fun a b => hpar j a b
      by_cases e : (u.jnt j).child = l
      · have hpm : h.parent j ∈ pre := hjp pre post (by rw [e])
        have hne : h.parent j ≠ l := fun e' => hlpre (e' ▸ hpm)
        rw [cacheStep, ← e, parentJoint_child hinj]
        simp only [Function.update_self]
        rw [e, Function.update_of_ne hne, Function.update_of_ne hne]
        exact ⟨rfl, rfl⟩
      · have hjm : (u.jnt j).child ∈ pre := by
          rcases List.mem_append.mp hj with h' | h'
          · exact h'
          · exact absurd (List.mem_singleton.mp h') e
        obtain ⟨a, b, hab⟩ := List.append_of_mem hjm
        have hpm : h.parent j ∈ pre := by
          have := hjp a (b ++ l :: post) (by rw [hab]; simp)
          rw [hab]; exact List.mem_append_left _ this
        have hne : h.parent j ≠ l := fun e' => hlpre (e' ▸ hpm)
        have := hc j hjm
        rw [cacheStep]
        split
        · exact this
        · simp only [Function.update_of_ne e, Function.update_of_ne hne]; exact this
    · rw [cacheStep]
      split
      · exact hr
      · rename_i j hj
        have hne : root ≠ l := by
          intro e
          rw [← e, parentJoint_root hroot] at hj
          cases hj
        simp only [Function.update_of_ne hne]; exact hr

theorem idxOf_map_inj {α β : Type} [DecidableEq α] [DecidableEq β] {f : α → β}
    (hf : Function.Injective f) (a : α) : ∀ l : List α, (l.map f).idxOf (f a) = l.idxOf a
  | [] => rfl
  | x :: l => by
    by_cases h : x = a
    · subst h; simp
    · rw [List.map_cons, List.idxOf_cons_ne _ (fun e => h (hf e)), List.idxOf_cons_ne _ h,
        idxOf_map_inj hf a l]

theorem filter_singleton {α : Type} [DecidableEq α] {l : List α} (hn : l.Nodup) {p : α → Bool}
    {r : α} (hr : r ∈ l) (hp : ∀ x ∈ l, p x = true ↔ x = r) : l.filter p = [r] := by
  have e : l.filter p = l.filter (fun x => decide (x = r)) :=
    List.filter_congr fun x hx => by
      by_cases h : x = r
      · rw [(hp x hx).mpr h]; simp [h]
      · have : p x = false := by
          rw [← Bool.not_eq_true]; exact fun h' => h ((hp x hx).mp h')
        simp [h, this]
  have e2 : l.filter (fun x => decide (x = r)) = List.replicate (l.count r) r :=
    List.filter_eq r
  rw [e, e2, List.count_eq_one_of_mem hn hr]
  rfl

theorem lid_root {root : String} {r : Robot u} (h : Good u root r) : r.lid root = 0 := by
  rw [Robot.lid, h.links_eq]; simp

theorem lid_child (hinj : ∀ i j : u.J, (u.jnt i).child = (u.jnt j).child → i = j)
    {root : String} {r : Robot u} (h : Good u root r) (j : u.J) :
    r.lid (u.jnt j).child = r.jid j + 1 := by
  rw [Robot.lid, h.links_eq, List.idxOf_cons_ne _ (h.root_child j).symm,
    idxOf_map_inj (f := fun j => (u.jnt j).child) (fun a b e => hinj a b e)]
  rfl

theorem rpyRot_valid (v : V3) : SO3.Valid (rpyRot v) := by
  have h0 := Real.sin_sq_add_cos_sq (v 0)
  have h1 := Real.sin_sq_add_cos_sq (v 1)
  have h2 := Real.sin_sq_add_cos_sq (v 2)
  generalize hs3 : Real.sin (v 0) = s3 at *
  generalize hs2 : Real.sin (v 1) = s2 at *
  generalize hs1 : Real.sin (v 2) = s1 at *
  generalize hc3 : Real.cos (v 0) = c3 at *
  generalize hc2 : Real.cos (v 1) = c2 at *
  generalize hc1 : Real.cos (v 2) = c1 at *
  have e : rpyRot v = !![c1, -s1, 0; s1, c1, 0; 0, 0, 1] * !![c2, 0, s2; 0, 1, 0; -s2, 0, c2]
      * !![1, 0, 0; 0, c3, -s3; 0, s3, c3] := by
    ext i j
    fin_cases i <;> fin_cases j <;>
      simp [rpyRot, Matrix.mul_apply, Fin.sum_univ_three, hs1, hs2, hs3, hc1, hc2, hc3] <;> ring
  rw [e]
  refine SO3.Valid.mul (SO3.Valid.mul ⟨?_, ?_⟩ ⟨?_, ?_⟩) ⟨?_, ?_⟩
  · ext i j
    fin_cases i <;> fin_cases j <;> simp [Matrix.mul_apply, Fin.sum_univ_three] <;>
      first | linear_combination h2 | ring1
  · simp [Matrix.det_fin_three]; linear_combination h2
  · ext i j
    fin_cases i <;> fin_cases j <;> simp [Matrix.mul_apply, Fin.sum_univ_three] <;>
      first | linear_combination h1 | ring1
  · simp [Matrix.det_fin_three]; linear_combination h1
  · ext i j
    fin_cases i <;> fin_cases j <;> simp [Matrix.mul_apply, Fin.sum_univ_three] <;>
      first | linear_combination h0 | ring1
  · simp [Matrix.det_fin_three]; linear_combination h0

theorem getOrigin_valid (p : Option UPose) : SO3.Valid (getOrigin p).R := by
  have h1 : SO3.Valid 1 := ⟨by simp, by simp⟩
  rcases p with _ | ⟨xyz, _ | rpy⟩
  · exact h1
  · exact h1
  · exact rpyRot_valid rpy

theorem create_inv (hw : u.WF) {d : String → ℕ}
    (hd : ∀ j : u.J, d (u.jnt j).parent < d (u.jnt j).child) :
    ∃ h, create u = some h ∧ ∀ (P : String → SE3) (mot : u.J → SE3),
      (∀ j, P (u.jnt j).child
        = (P (u.jnt j).parent).compose ((getOrigin (u.jnt j).origin).compose (mot j))) →
      Inv d P mot h := by
  have hall : (u.joints.all fun j =>
      j.kind.isSome && u.links.contains j.parent && u.links.contains j.child) = true := by
    rw [List.all_eq_true]
    intro x hx
    obtain ⟨i, hi, rfl⟩ := List.getElem_of_mem hx
    have h1 := hw.supported ⟨i, hi⟩
    have h2 := hw.parent_mem ⟨i, hi⟩
    have h3 := hw.child_mem ⟨i, hi⟩
    simp only [Urdf.jnt, List.get_eq_getElem] at h1 h2 h3
    simp [Option.isSome_iff_ne_none, h1, h2, h3]
  unfold create
  rw [if_pos hall]
  refine ⟨_, rfl, fun P mot hP => ⟨?_, ?_, hd, hw.parent_mem, hP, fun j => getOrigin_valid _⟩⟩
  · intro l j; simp
  · intro l; exact (List.nodup_finRange _).filter _

/-- A tree of relative poses has poses. -/
theorem exists_pose (hinj : ∀ i j : u.J, (u.jnt i).child = (u.jnt j).child → i = j)
    {root : String} (hrc : ∀ j : u.J, (u.jnt j).child ≠ root) {d : String → ℕ}
    (hd : ∀ j : u.J, d (u.jnt j).parent < d (u.jnt j).child) (rel : u.J → SE3) :
    ∃ P : String → SE3, P root = SE3.one ∧
      ∀ j, P (u.jnt j).child = (P (u.jnt j).parent).compose (rel j) := by
  have : ∀ n, ∃ P : String → SE3, P root = SE3.one ∧ ∀ j, d (u.jnt j).child < n →
      P (u.jnt j).child = (P (u.jnt j).parent).compose (rel j) := by
    intro n
    induction n with
    | zero => exact ⟨fun _ => SE3.one, rfl, fun j hj => absurd hj (Nat.not_lt_zero _)⟩
    | succ n ih =>
      obtain ⟨P, hPr, hP⟩ := ih
      refine ⟨fun l => if d l = n then
        (match parentJoint u l with
        | some j => (P (u.jnt j).parent).compose (rel j)
        | none => SE3.one) else P l, ?_, fun j hj => ?_⟩
      · simp only [parentJoint_root hrc, hPr, ite_self]
      have hpn : d (u.jnt j).parent ≠ n := by have := hd j; omega
      simp only [hpn, if_false]
      by_cases hjn : d (u.jnt j).child = n
      · simp only [hjn, if_true]
        rw [parentJoint_child hinj]
      · simp only [hjn, if_false]
        exact hP j (by omega)
  -- bound on the depth of the links
  obtain ⟨n, hn⟩ : ∃ n, ∀ j : u.J, d (u.jnt j).child < n := by
    refine ⟨(Finset.univ.sup fun j : u.J => d (u.jnt j).child) + 1, fun j => ?_⟩
    exact Nat.lt_succ_of_le
      (Finset.le_sup (f := fun j : u.J => d (u.jnt j).child) (Finset.mem_univ j))
  obtain ⟨P, hPr, hP⟩ := this n
  exact ⟨P, hPr, fun j => hP j (hn j)⟩

/-- Everything about the robot built from a legal URDF. -/
theorem fromUrdf_good (hw : u.WF) : ∃ r root d, fromUrdf u = some r ∧ u.getRoot = some root ∧
    Good u root r ∧ (∀ l ∈ u.links, (∀ j : u.J, (u.jnt j).child ≠ l) ↔ l = root) ∧
    r.dof = (u.joints.filter fun j => !j.isFixed).length ∧
    (∀ (P : String → SE3) (mot : u.J → SE3),
      (∀ j : u.J, (u.jnt j).isFixed → mot j = SE3.one) →
      (∀ j, P (u.jnt j).child
        = (P (u.jnt j).parent).compose ((getOrigin (u.jnt j).origin).compose (mot j))) →
      Inv d P mot r.heap) := by
  obtain ⟨d, hd⟩ := hw.acyclic
  obtain ⟨root, hrm, hroot⟩ := hw.root
  obtain ⟨h0, hc, hinv0⟩ := create_inv hw hd
  have hrc : ∀ j : u.J, (u.jnt j).child ≠ root := (hroot root hrm).mpr rfl
  have hget : u.getRoot = some root := by
    unfold Urdf.getRoot
    rw [filter_singleton hw.links_nodup hrm]
    intro l hl
    rw [← hroot l hl]
    simp only [Bool.not_eq_true', List.any_eq_false, beq_iff_eq]
    constructor
    · intro h j e; exact h (u.jnt j) (List.get_mem _ _) e
    · intro h x hx e
      obtain ⟨i, hi, rfl⟩ := List.getElem_of_mem hx
      exact h ⟨i, hi⟩ e
  -- the shape of the heap does not depend on poses
  have hinv : ∀ (P : String → SE3) (mot : u.J → SE3),
      (∀ j : u.J, (u.jnt j).isFixed → mot j = SE3.one) →
      (∀ j, P (u.jnt j).child
        = (P (u.jnt j).parent).compose ((getOrigin (u.jnt j).origin).compose (mot j))) →
      Inv d P mot (simplify u h0) ∧ ∀ k : u.J, (u.jnt k).isFixed →
      (simplify u h0).children (u.jnt k).child = [] :=
    fun P mot hm hP => simplify_spec hm (hinv0 P mot hP)
  obtain ⟨P0, -, hP0⟩ := exists_pose hw.child_inj hrc hd fun j =>
    (getOrigin (u.jnt j).origin).compose SE3.one
  obtain ⟨hi, hflat⟩ := hinv P0 (fun _ => SE3.one) (fun _ _ => rfl) hP0
  set h := simplify u h0 with hh
  obtain ⟨D, hD1, hD2, hD3, hD4⟩ := bfs_spec hi hw.child_inj hrc (u.joints.length + 1) []
    (h.children root) [] rfl (by simp) (by simpa using hi.nodup root)
    (by intro j; simp [hi.mem]) (by intro a j b e; simp at e)
  set order := bfs u h (u.joints.length + 1) (h.children root) [] with horder
  have hall : ∀ n (j : u.J), d (u.jnt j).child ≤ n → j ∈ D := by
    intro n
    induction n with
    | zero => intro j hj; have := hi.depth j; omega
    | succ n ih =>
      intro j hj
      rw [hD3]
      by_cases e : h.parent j = root
      · exact Or.inl e
      · right
        have hex : ∃ k : u.J, (u.jnt k).child = h.parent j := by
          by_contra hno
          push Not at hno
          exact e ((hroot _ (hi.links j)).mp hno)
        obtain ⟨k, hk⟩ := hex
        refine ⟨k, ?_, hk⟩
        rw [hD1]
        refine List.mem_filter.mpr ⟨ih k (by have := hi.depth j; rw [hk]; omega), ?_⟩
        by_contra hfix
        have hfix' : (u.jnt k).isFixed = true := by simpa using hfix
        have := hflat k hfix'
        rw [hk] at this
        have hm := (hi.mem (h.parent j) j).mpr rfl
        rw [this] at hm
        simp at hm
  have hDall : ∀ j, j ∈ D := fun j => hall _ j le_rfl
  have hord : ∀ j, j ∈ order ↔ (u.jnt j).isFixed = false := by
    intro j; rw [hD1, List.mem_filter]; simp [hDall]
  have hordn : order.Nodup := by rw [hD1]; exact hD2.filter _
  set rest := (List.finRange u.joints.length).filter fun j => !order.contains j with hrest
  have hrestm : ∀ j, j ∈ rest ↔ (u.jnt j).isFixed = true := by
    intro j
    simp [hrest, List.mem_filter, hord]
  have hra : (rest.all fun j => (u.jnt j).isFixed) = true := by
    rw [List.all_eq_true]; intro j hj; exact (hrestm j).mp hj
  have hjn : (order ++ rest).Nodup := by
    refine List.Nodup.append hordn ((List.nodup_finRange _).filter _) ?_
    intro j h1 h2
    rw [hord] at h1
    rw [hrestm, h1] at h2
    cases h2
  set joints := order ++ rest with hjoints
  set links := root :: joints.map (fun j => (u.jnt j).child) with hlinks
  set c := links.foldl (cacheStep u h fun j => joints.idxOf j) ⟨fun _ => [], fun _ => []⟩ with hcc
  have hidx : ∀ j ∈ order, joints.idxOf j = order.idxOf j := fun j hj =>
    List.idxOf_append_of_mem hj
  have hlt : ∀ j ∈ order, joints.idxOf j < order.length := fun j hj => by
    rw [hidx j hj]; exact List.idxOf_lt_length_of_mem hj
  have hpor : ∀ j : u.J, h.parent j = root ∨ ∃ k, (u.jnt k).child = h.parent j ∧
      joints.idxOf k < joints.idxOf j ∧ joints.idxOf k < order.length := by
    intro j
    by_cases hj : j ∈ order
    · obtain ⟨a, b, hab⟩ := List.append_of_mem hj
      rcases hD4 a j b hab with e | ⟨k, hk, e⟩
      · exact Or.inl e
      · right
        have hkm : k ∈ order := by rw [hab]; exact List.mem_append_left _ hk
        refine ⟨k, e, ?_, hlt k hkm⟩
        rw [hidx k hkm, hidx j hj, hab, List.idxOf_append_of_mem hk]
        have hja : j ∉ a := by
          rw [hab] at hordn
          exact fun hc => (List.disjoint_of_nodup_append hordn) hc (by simp)
        rw [List.idxOf_append_of_notMem hja]
        have := List.idxOf_lt_length_of_mem hk
        omega
    · rcases (hD3 j).mp (hDall j) with e | ⟨k, hk, e⟩
      · exact Or.inl e
      · right
        refine ⟨k, e, ?_, hlt k hk⟩
        have := hlt k hk
        rw [hjoints, List.idxOf_append_of_notMem hj] at *
        omega
  let r : Robot u :=
    { heap := h, joints := joints, links := links, dof := order.length,
      anc := c.anc, ancJ := c.ancJ }
  have hlinksn : links.Nodup := by
    rw [hlinks, List.nodup_cons]
    refine ⟨?_, hjn.map (fun a b e => hw.child_inj a b e)⟩
    simp only [List.mem_map, not_exists, not_and]
    exact fun j _ => hrc j
  have hjm : ∀ j, j ∈ joints := by
    intro j
    rw [hjoints, List.mem_append, hord, hrestm]
    cases (u.jnt j).isFixed <;> simp
  have hchild : ∀ j : u.J, links.idxOf (u.jnt j).child = joints.idxOf j + 1 := by
    intro j
    rw [hlinks, List.idxOf_cons_ne _ (hrc j).symm,
      idxOf_map_inj (f := fun j => (u.jnt j).child) (fun a b e => hw.child_inj a b e)]
  have hcache := cache_spec hw.child_inj (h := h) (jid := fun j => joints.idxOf j) hrc links []
    ⟨fun _ => [], fun _ => []⟩ (by simpa using hlinksn) (by
      intro j a b hab
      simp only [List.nil_append] at hab
      have h1 : links.idxOf (u.jnt j).child = a.length := by
        rw [hab] at hlinksn ⊢
        have hja : (u.jnt j).child ∉ a := fun hc =>
          (List.disjoint_of_nodup_append hlinksn) hc (by simp)
        rw [List.idxOf_append_of_notMem hja]; simp
      have h2 : links.idxOf (h.parent j) < a.length := by
        rw [← h1, hchild]
        rcases hpor j with e | ⟨k, e, hk, -⟩
        · rw [e, hlinks]; simp
        · rw [← e, hchild]; omega
      by_contra hc
      rw [hab, List.idxOf_append_of_notMem hc] at h2
      omega) (by simp) (by simp)
  refine ⟨r, root, d, ?_, hget, ⟨hrm, hrc, rfl, hjn, hjm, ?_, ?_, hpor, hcache.2, ?_⟩, hroot, ?_,
    fun P mot hm hP => (hinv P mot hm hP).1⟩
  · simp only [fromUrdf, hc, hget, Option.bind_eq_bind, Option.bind_some]
    rw [if_pos hra]
  · intro j
    rw [← hord]
    constructor
    · intro hlt'
      by_contra hno
      change joints.idxOf j < order.length at hlt'
      rw [hjoints, List.idxOf_append_of_notMem hno] at hlt'
      omega
    · exact fun hj => hlt j hj
  · change order.length ≤ joints.length
    rw [hjoints]; simp
  · intro j
    refine hcache.1 j ?_
    simp only [List.nil_append, hlinks]
    exact List.mem_cons_of_mem _ (List.mem_map.mpr ⟨j, hjm j, rfl⟩)
  · change order.length = _
    have e1 : order.Perm ((List.finRange u.joints.length).filter fun j => !(u.jnt j).isFixed) := by
      refine (List.perm_ext_iff_of_nodup hordn ((List.nodup_finRange _).filter _)).mpr fun j => ?_
      rw [hord]; simp
    rw [e1.length_eq]
    have e2 : u.joints = (List.finRange u.joints.length).map u.jnt := by
      have := List.map_get_finRange u.joints
      exact this.symm
    conv_rhs => rw [e2]
    rw [List.filter_map, List.length_map]
    rfl

end Build
end Verif.Kin
