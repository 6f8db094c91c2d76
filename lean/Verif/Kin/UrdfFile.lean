import Verif.Kin.XmlProps

/-!
# Theorems: robots from files (C112), and what the reader ignores (C111)
-/

namespace Verif.Kin.Urdfx
open Verif.Geometry Verif.Kin

/-- **C111.** The reader looks at a node only through the attributes and elements of its schema, and
of these only the order among elements of the same name matters: comments, unknown attributes and
elements, the order of the attributes and the way elements of different names are mixed make no
difference. -/
theorem read_ext {ps : List Param} (h : SchemaOk ps) {x y : Xml}
    (hx : (x.attrs.map Prod.fst).Nodup) (hy : (y.attrs.map Prod.fst).Nodup)
    (ha : ∀ p ∈ ps, p.kind = .attribute → x.get p.xml = y.get p.xml)
    (he : ∀ p ∈ ps, p.kind ≠ .attribute → x.all p.xml = y.all p.xml) (o : String → Val) :
    setFromXml ps x = .ok o ↔ setFromXml ps y = .ok o := by
  have hc : ∀ (z : Xml) t, z.child t = (z.all t).head? := fun z t => by
    simp only [Xml.child, Xml.all, List.head?_filter]
  have : ∀ p ∈ ps, ∀ v, p.Means x v ↔ p.Means y v := by
    intro p hp v
    unfold Param.Means
    cases hk : p.kind with
    | «attribute» => dsimp only; rw [ha p hp hk]
    | scalar => dsimp only; rw [hc, hc, he p hp (by simp [hk])]
    | aggregate => dsimp only; rw [he p hp (by simp [hk])]
  rw [read_iff h hx, read_iff h hy]
  exact and_congr_left' (forall₂_congr fun p hp => this p hp _)

theorem forall₂_count {α β : Type} {r : α → β → Prop} {f : α → Bool} {g : β → Bool} {l : List α}
    {m : List β} (h : List.Forall₂ r l m) (hr : ∀ a b, r a b → f a = g b) :
    (l.filter f).length = (m.filter g).length := by
  induction h with
  | nil => rfl
  | cons h _ ih =>
    rw [List.filter_cons, List.filter_cons, hr _ _ h]
    split <;> simp [ih]

theorem forall₂_mem' {α β : Type} {r : α → β → Prop} {l : List α} {m : List β}
    (h : List.Forall₂ r l m) : ∀ a ∈ l, ∃ b ∈ m, r a b := by
  induction h with
  | nil => simp
  | cons h _ ih =>
    intro a ha
    rcases List.mem_cons.mp ha with rfl | ha
    · exact ⟨_, by simp, h⟩
    · obtain ⟨b, hb, hr⟩ := ih a ha
      exact ⟨b, List.mem_cons_of_mem _ hb, hr⟩

variable {lex : Lex}

/-- **C112.** A robot file that is accepted and whose links and joints form a tree of supported
joints makes a robot with one degree of freedom for each joint element that is not fixed, and
forward kinematics gives every link the composition of the frames and motions that the elements
along its path declare. -/
theorem urdf_file_fk_partial {doc : Xml} {u : Urdf} (hd : doc.Ok) (hp : parseUrdf lex doc = .ok u)
    (hw : u.WF) : Declares lex doc u ∧
    ∃ (r : Robot u) (root : String), fromDoc lex doc = some ⟨u, r⟩ ∧ u.getRoot = some root ∧
      r.dof = ((doc.all "joint").filter fun x => x.get "type" ≠ some "fixed").length ∧
      ∀ (eps : ℝ) (q : List ℝ) (names : List String), q.length = r.dof →
        (∀ l ∈ names, l ∈ u.links) →
        ∃ poses, forwardKinematics r eps names q = some poses ∧
          List.Forall₂ (PathPose u eps root (coords r q)) names poses := by
  obtain ⟨-, hdec, -⟩ := (urdf_reads hd u).mp hp
  obtain ⟨r, root, h1, h2, h3, -, -, h6⟩ := fk_path hw
  refine ⟨hdec, r, root, by simp [fromDoc, hp, h1], h2, ?_, h6⟩
  rw [h3]
  exact (forall₂_count hdec.joints fun x j hj => by simp [hj.type]).symm

/-- **C112.** Files with a moving joint without an axis, with a joint of an unsupported type or with
a joint between undeclared links are rejected. -/
theorem urdf_file_rejects {doc : Xml} (hd : doc.Ok) {x : Xml} (hx : x ∈ doc.all "joint")
    (h : (x.get "type" ≠ some "fixed" ∧ x.child "axis" = none) ∨
      (∃ t, x.get "type" = some t ∧ t ∉ ["revolute", "continuous", "prismatic", "fixed"]) ∨
      ∃ tag ∈ ["parent", "child"], ∀ l, DeclaresEnd x tag l → ∀ y ∈ doc.all "link",
        y.get "name" ≠ some l) : fromDoc lex doc = none := by
  unfold fromDoc
  cases hp : parseUrdf lex doc with
  | error e => rfl
  | ok u =>
    obtain ⟨-, hdec, -⟩ := (urdf_reads hd u).mp hp
    obtain ⟨j, hj, hxj⟩ := forall₂_mem' hdec.joints x hx
    have hlink : ∀ l ∈ u.links, ∃ y ∈ doc.all "link", y.get "name" = some l := by
      have := hdec.links
      revert this
      generalize doc.all "link" = a
      generalize u.links = b
      intro h
      induction h with
      | nil => simp
      | cons h _ ih =>
        intro l hl
        rcases List.mem_cons.mp hl with rfl | hl
        · exact ⟨_, by simp, h⟩
        · obtain ⟨y, hy, e⟩ := ih l hl
          exact ⟨y, List.mem_cons_of_mem _ hy, e⟩
    have hbad : j.kind = none ∨ j.parent ∉ u.links ∨ j.child ∉ u.links := by
      rcases h with ⟨ht, ha⟩ | ⟨t, ht, hn⟩ | ⟨tag, htag, hl⟩
      · left
        have hax := hxj.axis
        rw [DeclaresAxis, ha] at hax
        rw [hxj.type] at ht
        have ht' : j.type ≠ "fixed" := fun e => ht (by rw [e])
        unfold UJoint.kind
        rw [hax]
        simp [ht']
      · left
        rw [hxj.type] at ht
        rw [← Option.some_injective _ ht] at hn
        simp only [List.mem_cons, List.not_mem_nil, or_false, not_or] at hn
        unfold UJoint.kind
        simp [hn]
      · right
        simp only [List.mem_cons, List.not_mem_nil, or_false] at htag
        rcases htag with rfl | rfl
        · left
          intro hm
          obtain ⟨y, hy, e⟩ := hlink _ hm
          exact hl _ hxj.parent y hy e
        · right
          intro hm
          obtain ⟨y, hy, e⟩ := hlink _ hm
          exact hl _ hxj.child y hy e
    have : create u = none := by
      unfold create
      rw [if_neg]
      simp only [List.all_eq_true, Bool.and_eq_true, List.contains_eq_mem, decide_eq_true_eq]
      intro hall
      obtain ⟨⟨h1, h2⟩, h3⟩ := hall j hj
      rcases hbad with h | h | h
      · simp [h] at h1
      · exact h h2
      · exact h h3
    simp [fromUrdf, this]

/-! ### A file -/

/-- A lexer for the file below. -/
noncomputable def lex0 : Lex where
  float s := if s = "0" then some 0 else if s = "1" then some 1 else if s = "10" then some 10 else none
  words s := if s = "0 0 1" then ["0", "0", "1"] else [s]

/-- An arm of which the second joint mimics the first one, with a comment, an unknown element and
the links and joints mixed. -/
def armJoint : Xml := .elem "joint" [("type", "revolute"), ("name", "elbow")] none
  [.elem "origin" [("xyz", "0 0 1")] none [], .elem "parent" [("link", "base")] none [],
   .elem "child" [("link", "arm")] none [], .elem "axis" [("xyz", "0 0 1")] none [],
   .elem "axis" [("xyz", "ignored")] none [],
   .elem "limit" [("effort", "10"), ("velocity", "1")] none []]
def gripJoint : Xml := .elem "joint" [("name", "grip"), ("type", "revolute")] none
  [.elem "parent" [("link", "arm")] none [], .elem "child" [("link", "finger")] none [],
   .elem "axis" [("xyz", "0 0 1")] none [], .elem "mimic" [("joint", "elbow")] none []]
def linkNode (n : String) : Xml := .elem "link" [("name", n)] none []
def armDoc : Xml := .elem "robot" [("name", "arm"), ("version", "1.0")] none
  [linkNode "base", armJoint, .comment "the hand", linkNode "arm", .elem "sensor" [] none [],
   gripJoint, linkNode "finger"]

/-- The robot that it declares. -/
def armUrdf : Urdf where
  links := ["base", "arm", "finger"]
  joints := [⟨"elbow", "revolute", "base", "arm", some ⟨some ![0, 0, 1], some ![0, 0, 0]⟩,
      some ![0, 0, 1]⟩,
    ⟨"grip", "revolute", "arm", "finger", none, some ![0, 0, 1]⟩]

theorem armDoc_ok : armDoc.Ok := by
  refine .elem _ _ _ _ (by simp) ?_
  simp only [List.mem_cons, List.not_mem_nil, or_false]
  rintro c (rfl | rfl | rfl | rfl | rfl | rfl | rfl)
  · exact .elem _ _ _ _ (by simp) (by simp)
  · refine .elem _ _ _ _ (by simp) ?_
    simp only [List.mem_cons, List.not_mem_nil, or_false]
    rintro c (rfl | rfl | rfl | rfl | rfl | rfl) <;> exact .elem _ _ _ _ (by simp) (by simp)
  · exact .comment _
  · exact .elem _ _ _ _ (by simp) (by simp)
  · exact .elem _ _ _ _ (by simp) (by simp)
  · refine .elem _ _ _ _ (by simp) ?_
    simp only [List.mem_cons, List.not_mem_nil, or_false]
    rintro c (rfl | rfl | rfl | rfl) <;> exact .elem _ _ _ _ (by simp) (by simp)
  · exact .elem _ _ _ _ (by simp) (by simp)

/-- Two nodes that meet the hypotheses of `read_ext`: the attributes in another order, a comment,
and an element that the schema does not know. -/
example (o : String → Val) : setFromXml (jointPs lex0) armJoint = .ok o ↔
    setFromXml (jointPs lex0) (.elem "joint" [("name", "elbow"), ("type", "revolute")] none
      (.comment "first" :: .elem "sensor" [] none [] :: armJoint.kids)) = .ok o := by
  refine read_ext (jointOk lex0) (by simp [armJoint, Xml.attrs]) (by simp [Xml.attrs]) ?_ ?_ o
  · intro p hp hk
    simp only [jointPs, List.mem_cons, List.not_mem_nil, or_false] at hp
    rcases hp with rfl | rfl | rfl | rfl | rfl | rfl | rfl | rfl | rfl | rfl | rfl
    · rfl
    · rfl
    all_goals cases hk
  · intro p hp hk
    simp only [jointPs, List.mem_cons, List.not_mem_nil, or_false] at hp
    rcases hp with rfl | rfl | rfl | rfl | rfl | rfl | rfl | rfl | rfl | rfl | rfl
    · exact absurd rfl hk
    · exact absurd rfl hk
    all_goals rfl

theorem vec3_lex0 : Vec3 lex0 "0 0 1" ![0, 0, 1] :=
  ⟨"0", "0", "1", by simp [lex0], by simp [lex0], by simp [lex0], by simp [lex0]⟩

theorem armDoc_joints : armDoc.all "joint" = [armJoint, gripJoint] := by
  simp [Xml.all, Xml.children, Xml.kids, armDoc, linkNode, armJoint, gripJoint, Xml.tag]

theorem armDoc_links : armDoc.all "link" = [linkNode "base", linkNode "arm", linkNode "finger"] := by
  simp [Xml.all, Xml.children, Xml.kids, armDoc, linkNode, armJoint, gripJoint, Xml.tag]

theorem armDoc_declares : Declares lex0 armDoc armUrdf := by
  have e : ∀ (t l : String) (k : List Xml) (n : String) (a : List (String × String)) s,
      Xml.child (.elem n a s k) t = some (.elem t [("link", l)] none []) →
      DeclaresEnd (.elem n a s k) t l := fun t l k n a s h =>
    ⟨_, h, by simp [Xml.get, Xml.attrs]⟩
  constructor
  · rw [armDoc_links]
    simp [armUrdf, linkNode, Xml.get, Xml.attrs, List.lookup]
  · rw [armDoc_joints]
    refine .cons ⟨?_, ?_, by simp, ?_, ?_, ?_, ?_⟩ (.cons ⟨?_, ?_, by simp, ?_, ?_, ?_, ?_⟩ .nil)
    · rfl
    · rfl
    · exact e _ _ _ _ _ _ rfl
    · exact e _ _ _ _ _ _ rfl
    · exact ⟨![0, 0, 1], ![0, 0, 0], rfl, vec3_lex0, rfl⟩
    · exact ⟨"0 0 1", ![0, 0, 1], rfl, rfl, vec3_lex0⟩
    · rfl
    · rfl
    · exact e _ _ _ _ _ _ rfl
    · exact e _ _ _ _ _ _ rfl
    · rfl
    · exact ⟨"0 0 1", ![0, 0, 1], rfl, rfl, vec3_lex0⟩

theorem limit_lex0 : ∃ v, (limitT lex0).ofXml
    (.elem "limit" [("effort", "10"), ("velocity", "1")] none []) = .ok v := by
  obtain ⟨o, ho⟩ := read_complete (ps := [attr "effort" (floatT lex0),
      attr "lower" (floatT lex0) false (.num 0), attr "upper" (floatT lex0) false (.num 0),
      attr "velocity" (floatT lex0)])
    ⟨by simp [attr], by simp [attr], by simp [attr]⟩
    (x := .elem "limit" [("effort", "10"), ("velocity", "1")] none []) (by simp [Xml.attrs]) (by
      intro p hp
      simp only [List.mem_cons, List.not_mem_nil, or_false] at hp
      rcases hp with rfl | rfl | rfl | rfl
      · exact ⟨.num 10, by simp [Param.Means, attr, Xml.get, Xml.attrs, floatT, floatOf, lex0]⟩
      · exact ⟨.num 0, by simp [Param.Means, attr, Xml.get, Xml.attrs, Param.Absent, List.lookup]⟩
      · exact ⟨.num 0, by simp [Param.Means, attr, Xml.get, Xml.attrs, Param.Absent, List.lookup]⟩
      · exact ⟨.num 1, by simp [Param.Means, attr, Xml.get, Xml.attrs, floatT, floatOf, lex0,
          List.lookup]⟩)
  exact ⟨_, objectT_ok.mpr ⟨o, o, ho, rfl, rfl, rfl⟩⟩

theorem mimic_lex0 : ∃ v, (mimicT lex0).ofXml (.elem "mimic" [("joint", "elbow")] none []) = .ok v := by
  obtain ⟨o, ho⟩ := read_complete (ps := [attr "joint" strT, attr "multiplier" (floatT lex0) false,
      attr "offset" (floatT lex0) false])
    ⟨by simp [attr], by simp [attr], by simp [attr]⟩
    (x := .elem "mimic" [("joint", "elbow")] none []) (by simp [Xml.attrs]) (by
      intro p hp
      simp only [List.mem_cons, List.not_mem_nil, or_false] at hp
      rcases hp with rfl | rfl | rfl
      · exact ⟨.str "elbow", by simp [Param.Means, attr, Xml.get, Xml.attrs, strT]⟩
      · exact ⟨.none, by simp [Param.Means, attr, Xml.get, Xml.attrs, Param.Absent]⟩
      · exact ⟨.none, by simp [Param.Means, attr, Xml.get, Xml.attrs, Param.Absent]⟩)
  exact ⟨_, objectT_ok.mpr ⟨o, o, ho, rfl, rfl, rfl⟩⟩

theorem armDoc_extras : Extras lex0 armDoc where
  links := by
    rw [armDoc_links]
    intro x hx p hp hn
    have hx : ∃ n, x = linkNode n := by
      simp only [List.mem_cons, List.not_mem_nil, or_false] at hx
      rcases hx with h | h | h <;> exact ⟨_, h⟩
    obtain ⟨n, rfl⟩ := hx
    simp only [linkPs, List.mem_cons, List.not_mem_nil, or_false] at hp
    rcases hp with rfl | rfl | rfl | rfl | rfl
    · exact absurd rfl hn
    · exact ⟨.none, rfl, rfl⟩
    · exact ⟨.list [], [], rfl, .nil⟩
    · exact ⟨.list [], [], rfl, .nil⟩
    · exact ⟨.none, rfl, rfl⟩
  joints := by
    rw [armDoc_joints]
    intro x hx p hp hn
    simp only [List.mem_cons, List.not_mem_nil, or_false] at hx
    simp only [jointPs, List.mem_cons, List.not_mem_nil, or_false] at hp
    rcases hx with rfl | rfl <;> rcases hp with rfl | rfl | rfl | rfl | rfl | rfl | rfl | rfl | rfl | rfl | rfl
    all_goals first
      | (exfalso; revert hn; simp [nameP, originP, attr, elt]; done)
      | exact limit_lex0
      | exact mimic_lex0
      | exact ⟨.none, rfl, rfl⟩
  transmissions := by
    have : armDoc.all "transmission" = [] := by
      simp [Xml.all, Xml.children, Xml.kids, armDoc, linkNode, armJoint, gripJoint, Xml.tag]
    simp [this]
  materials := by
    have : armDoc.all "material" = [] := by
      simp [Xml.all, Xml.children, Xml.kids, armDoc, linkNode, armJoint, gripJoint, Xml.tag]
    simp [this]

theorem armDoc_reads : parseUrdf lex0 armDoc = .ok armUrdf :=
  (urdf_reads armDoc_ok armUrdf).mpr
    ⟨⟨by simp [armDoc, Xml.get, Xml.attrs], Or.inr rfl⟩, armDoc_declares, armDoc_extras⟩

theorem armUrdf_wf : armUrdf.WF where
  links_nodup := by decide
  names_nodup := by decide
  child_inj := by
    intro i j h
    fin_cases i <;> fin_cases j <;> first | rfl | (exfalso; revert h; decide)
  parent_mem := by intro j; fin_cases j <;> decide
  child_mem := by intro j; fin_cases j <;> decide
  supported := by intro j; fin_cases j <;> simp [Urdf.jnt, armUrdf, UJoint.kind]
  root := ⟨"base", by decide, by
    intro l hl
    have : l = "base" ∨ l = "arm" ∨ l = "finger" := by simpa [armUrdf] using hl
    constructor
    · intro h
      rcases this with rfl | rfl | rfl
      · rfl
      · exact absurd rfl (h (0 : Fin 2))
      · exact absurd rfl (h (1 : Fin 2))
    · rintro rfl j
      fin_cases j <;> decide⟩
  acyclic := ⟨fun l => if l = "finger" then 2 else if l = "arm" then 1 else 0, by
    intro j; fin_cases j <;> decide⟩

/-- The file meets the hypotheses of `urdf_file_fk_partial`. -/
example : ∃ r : Robot armUrdf, fromDoc lex0 armDoc = some ⟨armUrdf, r⟩ ∧ r.dof = 2 := by
  obtain ⟨-, r, -, h, -, hd, -⟩ := urdf_file_fk_partial armDoc_ok armDoc_reads armUrdf_wf
  exact ⟨r, h, by rw [hd, armDoc_joints]; rfl⟩

/-- What URDF says about `mimic`: the joint has no coordinate of its own, so that the number of
coordinates of a robot is the number of moving joints that mimic no other one. -/
def MimicFollows (lex : Lex) (doc : Xml) : Prop :=
  ∀ u (r : Robot u), fromDoc lex doc = some ⟨u, r⟩ →
    r.dof = ((doc.all "joint").filter fun x =>
      x.get "type" ≠ some "fixed" ∧ x.child "mimic" = none).length

/-- The code violates **C112**: a joint that mimics another one is an independent joint. -/
theorem urdf_mimic_wrong : ¬ ∀ lex doc, doc.Ok → MimicFollows lex doc := by
  intro h
  obtain ⟨-, r, -, hr, -, hd, -⟩ := urdf_file_fk_partial armDoc_ok armDoc_reads armUrdf_wf
  have := h lex0 armDoc armDoc_ok armUrdf r hr
  rw [hd, armDoc_joints] at this
  revert this
  have h1 : ([armJoint, gripJoint].filter fun x => decide (x.get "type" ≠ some "fixed")).length = 2 := rfl
  have h2 : armJoint.child "mimic" = none := rfl
  have h3 : gripJoint.child "mimic" ≠ none := by
    simp [gripJoint, Xml.child, Xml.children, Xml.kids, Xml.tag]
  rw [h1]
  simp only [List.filter_cons, List.filter_nil, h2, h3, and_true, and_false, decide_false,
    Bool.false_eq_true, if_false]
  split <;> simp

/-- A file with a revolute joint without an axis, which by URDF is the x-axis: the parser accepts
it, and `from_urdf_file` raises. -/
def noAxis : Xml := .elem "robot" [("name", "r")] none
  [linkNode "base", linkNode "arm", .elem "joint" [("name", "j"), ("type", "revolute")] none
    [.elem "parent" [("link", "base")] none [], .elem "child" [("link", "arm")] none []]]

theorem noAxis_ok : noAxis.Ok := by
  refine .elem _ _ _ _ (by simp) ?_
  simp only [List.mem_cons, List.not_mem_nil, or_false]
  rintro c (rfl | rfl | rfl)
  · exact .elem _ _ _ _ (by simp) (by simp)
  · exact .elem _ _ _ _ (by simp) (by simp)
  · refine .elem _ _ _ _ (by simp) ?_
    simp only [List.mem_cons, List.not_mem_nil, or_false]
    rintro c (rfl | rfl) <;> exact .elem _ _ _ _ (by simp) (by simp)

/-- The code violates **C112**: the default axis of URDF is not applied; the parser accepts the
file and the robot cannot be made. -/
theorem urdf_default_axis_wrong : noAxis.Ok ∧
    parseUrdf lex0 noAxis = .ok ⟨["base", "arm"], [⟨"j", "revolute", "base", "arm", none, none⟩]⟩ ∧
    fromDoc lex0 noAxis = none := by
  have hj : noAxis.all "joint" = [.elem "joint" [("name", "j"), ("type", "revolute")] none
      [.elem "parent" [("link", "base")] none [], .elem "child" [("link", "arm")] none []]] := by
    simp [Xml.all, Xml.children, Xml.kids, noAxis, linkNode, Xml.tag]
  have hl : noAxis.all "link" = [linkNode "base", linkNode "arm"] := by
    simp [Xml.all, Xml.children, Xml.kids, noAxis, linkNode, Xml.tag]
  refine ⟨noAxis_ok, (urdf_reads noAxis_ok _).mpr ⟨⟨by simp [noAxis, Xml.get, Xml.attrs], Or.inl rfl⟩,
    ⟨?_, ?_⟩, ⟨?_, ?_, ?_, ?_⟩⟩, urdf_file_rejects noAxis_ok (by rw [hj]; exact List.mem_singleton.mpr rfl)
      (Or.inl ⟨by simp [Xml.get, Xml.attrs, List.lookup], rfl⟩)⟩
  · rw [hl]; exact .cons rfl (.cons rfl .nil)
  · rw [hj]
    exact .cons ⟨rfl, rfl, by simp, ⟨_, rfl, rfl⟩, ⟨_, rfl, rfl⟩, rfl, rfl⟩ .nil
  · rw [hl]
    intro x hx p hp hn
    have hx : ∃ n, x = linkNode n := by
      simp only [List.mem_cons, List.not_mem_nil, or_false] at hx
      rcases hx with h | h <;> exact ⟨_, h⟩
    obtain ⟨n, rfl⟩ := hx
    simp only [linkPs, List.mem_cons, List.not_mem_nil, or_false] at hp
    rcases hp with rfl | rfl | rfl | rfl | rfl
    · exact absurd rfl hn
    · exact ⟨.none, rfl, rfl⟩
    · exact ⟨.list [], [], rfl, .nil⟩
    · exact ⟨.list [], [], rfl, .nil⟩
    · exact ⟨.none, rfl, rfl⟩
  · rw [hj]
    intro x hx p hp hn
    rw [List.mem_singleton] at hx
    subst hx
    simp only [jointPs, List.mem_cons, List.not_mem_nil, or_false] at hp
    rcases hp with rfl | rfl | rfl | rfl | rfl | rfl | rfl | rfl | rfl | rfl | rfl
    all_goals first
      | (exfalso; revert hn; simp [nameP, originP, attr, elt]; done)
      | exact ⟨.none, rfl, rfl⟩
  · have : noAxis.all "transmission" = [] := by
      simp [Xml.all, Xml.children, Xml.kids, noAxis, linkNode, Xml.tag]
    simp [this]
  · have : noAxis.all "material" = [] := by
      simp [Xml.all, Xml.children, Xml.kids, noAxis, linkNode, Xml.tag]
    simp [this]

end Verif.Kin.Urdfx
