import Verif.Kin.XmlSpec
import Verif.Kin.KinProps

/-!
# Theorems: reading a URDF document (C111, C112)

Specification: `Declares` (the robot that a document declares, element by element), `Header` and
`Extras` (what else a document must satisfy to be accepted).
-/

namespace Verif.Kin.Urdfx
open Verif.Geometry Verif.Kin

/-- Well-formed XML: the attributes of an element have different names. -/
inductive Xml.Ok : Xml → Prop
  | comment (s : String) : Ok (.comment s)
  | elem (t : String) (a : List (String × String)) (s : Option String) (k : List Xml)
      (ha : (a.map Prod.fst).Nodup) (hk : ∀ c ∈ k, Ok c) : Ok (.elem t a s k)

theorem Xml.Ok.attrs {x : Xml} (h : x.Ok) : (x.attrs.map Prod.fst).Nodup := by
  cases h with
  | comment => simp [Xml.attrs]
  | elem t a s k ha hk => exact ha

theorem Xml.Ok.kids {x : Xml} (h : x.Ok) : ∀ c ∈ x.kids, c.Ok := by
  cases h with
  | comment => simp [Xml.kids]
  | elem t a s k ha hk => exact hk

theorem Xml.Ok.child {x c : Xml} {t : String} (h : x.Ok) (hc : x.child t = some c) : c.Ok :=
  h.kids c (List.mem_filter.mp (List.mem_of_find?_eq_some hc)).1

theorem Xml.Ok.all {x c : Xml} {t : String} (h : x.Ok) (hc : c ∈ x.all t) : c.Ok :=
  h.kids c (List.mem_filter.mp (List.mem_filter.mp hc).1).1

/-- The string consists of three numbers. -/
def Vec3 (lex : Lex) (s : String) (v : V3) : Prop :=
  ∃ a b c, lex.words s = [a, b, c] ∧ lex.float a = some (v 0) ∧ lex.float b = some (v 1) ∧
    lex.float c = some (v 2)

/-- The three numbers in an attribute, zero by default. -/
def Vec3Attr (lex : Lex) (x : Xml) (key : String) (v : V3) : Prop :=
  match x.get key with
  | none => v = ![0, 0, 0]
  | some s => Vec3 lex s v

/-- The `origin` of a joint. -/
def DeclaresOrigin (lex : Lex) (x : Xml) (o : Option UPose) : Prop :=
  match x.child "origin" with
  | none => o = none
  | some c => ∃ xyz rpy, o = some ⟨some xyz, some rpy⟩ ∧ Vec3Attr lex c "xyz" xyz ∧
      Vec3Attr lex c "rpy" rpy

/-- The `axis` of a joint: absent, or with three numbers. -/
def DeclaresAxis (lex : Lex) (x : Xml) (a : Option V3) : Prop :=
  match x.child "axis" with
  | none => a = none
  | some c => ∃ s v, c.get "xyz" = some s ∧ a = some v ∧ Vec3 lex s v

/-- The link named by the first `parent` or `child` of a joint; if it names none, it is `None`. -/
def DeclaresEnd (x : Xml) (tag : String) (l : String) : Prop :=
  ∃ c, x.child tag = some c ∧ l = (c.get "link").getD "None"

/-- The joint that an element declares. -/
structure DeclaresJoint (lex : Lex) (x : Xml) (j : UJoint) : Prop where
  name : x.get "name" = some j.name
  type : x.get "type" = some j.type
  legal : j.type ∈ ["unknown", "revolute", "continuous", "prismatic", "floating", "planar", "fixed"]
  parent : DeclaresEnd x "parent" j.parent
  child : DeclaresEnd x "child" j.child
  origin : DeclaresOrigin lex x j.origin
  axis : DeclaresAxis lex x j.axis

/-- The robot that a document declares. -/
structure Declares (lex : Lex) (doc : Xml) (u : Urdf) : Prop where
  links : List.Forall₂ (fun x n => x.get "name" = some n) (doc.all "link") u.links
  joints : List.Forall₂ (DeclaresJoint lex) (doc.all "joint") u.joints

/-- The document has a name, and a version only if it is 1.0. -/
def Header (doc : Xml) : Prop :=
  doc.get "name" ≠ none ∧ (doc.get "version" = none ∨ doc.get "version" = some "1.0")

/-- What the robot does not use can be read as well. -/
structure Extras (lex : Lex) (doc : Xml) : Prop where
  links : ∀ x ∈ doc.all "link", ∀ p ∈ linkPs lex, p.xml ≠ "name" → ∃ v, p.Means x v
  joints : ∀ x ∈ doc.all "joint", ∀ p ∈ jointPs lex,
    p.xml ∉ ["name", "type", "origin", "axis", "parent", "child"] → ∃ v, p.Means x v
  transmissions : ∀ x ∈ doc.all "transmission", ∃ v, (transmissionT lex).ofXml x = .ok v
  materials : ∀ x ∈ doc.all "material", ∃ v, (materialT lex).ofXml x = .ok v

section Schemas
variable (lex : Lex)

theorem poseOk : SchemaOk [attr "xyz" (vectorT lex 3) false zero3,
    attr "rpy" (vectorT lex 3) false zero3] :=
  ⟨by simp [attr], by simp [attr], by simp [attr]⟩

theorem linkOk : SchemaOk (linkPs lex) :=
  ⟨by simp [linkPs, nameP, originP, attr, elt, agg], by simp [linkPs, nameP, originP, attr, elt, agg],
    by simp [linkPs, nameP, originP, attr, elt, agg]⟩

theorem jointOk : SchemaOk (jointPs lex) :=
  ⟨by simp [jointPs, nameP, originP, attr, elt], by simp [jointPs, nameP, originP, attr, elt],
    by simp [jointPs, nameP, originP, attr, elt]⟩

theorem robotOk : SchemaOk (robotPs lex) :=
  ⟨by simp [robotPs, attr, agg], by simp [robotPs, attr, agg], by simp [robotPs, attr, agg]⟩

end Schemas

section Read
variable {lex : Lex}

theorem vectorOf_ok {s : String} {v : Val} :
    vectorOf lex 3 (some s) = .ok v ↔ ∃ w : V3, Vec3 lex s w ∧ v = .vec [w 0, w 1, w 2] := by
  constructor
  · intro h
    simp only [vectorOf] at h
    by_cases hl : (lex.words s).length = 3
    · rw [if_neg (by simpa using hl)] at h
      obtain ⟨a, b, c, hw⟩ := List.length_eq_three.mp hl
      rw [hw] at h
      cases ha : lex.float a with
      | none => simp [ha] at h
      | some x =>
        cases hb : lex.float b with
        | none => simp [ha, hb] at h
        | some y =>
          cases hc : lex.float c with
          | none => simp [ha, hb, hc] at h
          | some z =>
            simp [ha, hb, hc] at h
            exact ⟨![x, y, z], ⟨a, b, c, hw, by simp [ha], by simp [hb], by simp [hc]⟩, by simp [← h]⟩
    · rw [if_pos (by simpa using hl)] at h; cases h
  · rintro ⟨w, ⟨a, b, c, hw, ha, hb, hc⟩, rfl⟩
    simp only [vectorOf]
    rw [if_neg (by simp [hw]), hw]
    simp [ha, hb, hc]

theorem toV3_vec (w : V3) : (Val.vec [w 0, w 1, w 2]).toV3 = some w := by
  simp only [Val.toV3, Option.some.injEq]
  funext i; fin_cases i <;> rfl

theorem objectT_ok {ps : List Param} {post : (String → Val) → Except XErr (String → Val)}
    {valid : (String → Val) → Bool} {x : Xml} {v : Val} :
    (objectT ps post valid).ofXml x = .ok v ↔
      ∃ o o', setFromXml ps x = .ok o ∧ post o = .ok o' ∧ valid o' = true ∧ v = .obj o' := by
  simp only [objectT]
  cases setFromXml ps x with
  | error e => simp
  | ok o =>
    simp only [Except.ok.injEq]
    cases hp : post o with
    | error e => simp [hp]
    | ok o' =>
      dsimp only
      constructor
      · intro h
        by_cases hv : valid o'
        · rw [if_pos hv] at h
          exact ⟨o, o', rfl, hp, hv, (Except.ok.inj h).symm⟩
        · rw [if_neg hv] at h; cases h
      · rintro ⟨a, b, rfl, hb, hv, rfl⟩
        rw [hp] at hb
        obtain rfl := Except.ok.inj hb
        rw [if_pos hv]

/-- A vector attribute with default zero. -/
theorem vecAttr_means {x : Xml} {k : String} {v : Val} :
    (attr k (vectorT lex 3) false zero3).Means x v ↔
      ∃ w : V3, Vec3Attr lex x k w ∧ v = .vec [w 0, w 1, w 2] := by
  simp only [Param.Means, attr, Vec3Attr, Param.Absent]
  cases x.get k with
  | none =>
    simp only [zero3, true_and]
    constructor
    · rintro rfl; exact ⟨_, rfl, by simp⟩
    · rintro ⟨_, rfl, rfl⟩; simp
  | some s => exact vectorOf_ok

theorem pose_means {x : Xml} (hx : x.Ok) {v : Val} : (originP lex).Means x v ↔
    ∃ o, DeclaresOrigin lex x o ∧ v.toPose = o ∧
      match o with
      | none => v = .none
      | some _ => (poseT lex).ofXml ((x.child "origin").getD x) = .ok v := by
  simp only [Param.Means, originP, elt, DeclaresOrigin, Param.Absent]
  cases hc : x.child "origin" with
  | none =>
    simp only [true_and]
    constructor
    · rintro rfl; exact ⟨none, rfl, rfl, rfl⟩
    · rintro ⟨o, rfl, -, h⟩; exact h
  | some c =>
    have hco := hx.child hc
    simp only [Option.getD_some]
    constructor
    · intro h
      obtain ⟨o, o', h1, h2, -, rfl⟩ := objectT_ok.mp h
      obtain rfl := Except.ok.inj h2
      obtain ⟨m, -⟩ := (read_iff (poseOk lex) hco.attrs o).mp h1
      obtain ⟨w, hw, ew⟩ := vecAttr_means.mp (m (attr "xyz" (vectorT lex 3) false zero3) (by simp))
      obtain ⟨z, hz, ez⟩ := vecAttr_means.mp (m (attr "rpy" (vectorT lex 3) false zero3) (by simp))
      refine ⟨some ⟨some w, some z⟩, ⟨w, z, rfl, hw, hz⟩, ?_, h⟩
      simp only [attr] at ew ez
      simp only [Val.toPose, Val.field, ew, ez, toV3_vec]
    · rintro ⟨o, ⟨w, z, rfl, -, -⟩, -, h⟩; exact h

/-- The pose of a declared origin can be read. -/
theorem pose_exists {x : Xml} (hx : x.Ok) {o : Option UPose} (h : DeclaresOrigin lex x o) :
    ∃ v, (originP lex).Means x v := by
  simp only [Param.Means, originP, elt, DeclaresOrigin, Param.Absent] at h ⊢
  cases hc : x.child "origin" with
  | none => exact ⟨_, trivial, rfl⟩
  | some c =>
    rw [hc] at h
    obtain ⟨w, z, -, hw, hz⟩ := h
    obtain ⟨o, ho⟩ := read_complete (poseOk lex) (hx.child hc).attrs (by
      intro p hp
      simp only [List.mem_cons, List.not_mem_nil, or_false] at hp
      rcases hp with rfl | rfl
      · exact ⟨_, vecAttr_means.mpr ⟨w, hw, rfl⟩⟩
      · exact ⟨_, vecAttr_means.mpr ⟨z, hz, rfl⟩⟩)
    exact ⟨.obj o, objectT_ok.mpr ⟨o, o, ho, rfl, rfl, rfl⟩⟩

theorem strAttr_means {x : Xml} {k : String} {v : Val} :
    (attr k strT).Means x v ↔ ∃ s, x.get k = some s ∧ v = .str s := by
  simp only [Param.Means, attr, strT, Param.Absent]
  cases x.get k with
  | none => simp
  | some s => simp [eq_comm]

theorem end_means {x : Xml} {k : String} {v : Val} :
    (elt k (simpleT "link" strT)).Means x v ↔ ∃ s, DeclaresEnd x k s ∧ v = .str s := by
  simp only [Param.Means, elt, simpleT, strT, Param.Absent, DeclaresEnd]
  cases x.child k with
  | none => simp
  | some c => simp [eq_comm]

theorem axis_means {x : Xml} {v : Val} :
    (elt "axis" (simpleT "xyz" (vectorT lex 3)) false).Means x v ↔
      ∃ a, DeclaresAxis lex x a ∧
        v = match a with | none => .none | some w => .vec [w 0, w 1, w 2] := by
  simp only [Param.Means, elt, simpleT, vectorT, Param.Absent, DeclaresAxis]
  cases x.child "axis" with
  | none =>
    simp only [true_and]
    constructor
    · rintro rfl; exact ⟨none, rfl, rfl⟩
    · rintro ⟨a, rfl, rfl⟩; rfl
  | some c =>
    dsimp only
    cases hg : c.get "xyz" with
    | none => simp [vectorOf]
    | some s =>
      rw [vectorOf_ok]
      constructor
      · rintro ⟨w, hw, rfl⟩; exact ⟨some w, ⟨s, w, rfl, rfl, hw⟩, rfl⟩
      · rintro ⟨a, ⟨s', w, hs, rfl, hw⟩, rfl⟩
        obtain rfl := Option.some_injective _ hs
        exact ⟨w, hw, rfl⟩

/-- A joint is read as the one that its element declares. -/
theorem joint_reads {x : Xml} (hx : x.Ok) {v : Val} (h : (jointT lex).ofXml x = .ok v) :
    DeclaresJoint lex x v.toJoint ∧ ∀ p ∈ jointPs lex, ∃ w, p.Means x w := by
  obtain ⟨o, o', h1, h2, h3, rfl⟩ := objectT_ok.mp h
  obtain rfl := Except.ok.inj h2
  obtain ⟨m, -⟩ := (read_iff (jointOk lex) hx.attrs o).mp h1
  refine ⟨?_, fun p hp => ⟨_, m p hp⟩⟩
  obtain ⟨n, hn, en⟩ := strAttr_means.mp (m nameP (by simp [jointPs]))
  obtain ⟨t, ht, et⟩ := strAttr_means.mp (m (attr "type" strT) (by simp [jointPs]))
  obtain ⟨p, hp, ep⟩ := end_means.mp (m (elt "parent" (simpleT "link" strT)) (by simp [jointPs]))
  obtain ⟨c, hc, ec⟩ := end_means.mp (m (elt "child" (simpleT "link" strT)) (by simp [jointPs]))
  obtain ⟨g, hg, eg, -⟩ := (pose_means hx).mp (m (originP lex) (by simp [jointPs]))
  obtain ⟨a, ha, ea⟩ := axis_means.mp (m (elt "axis" (simpleT "xyz" (vectorT lex 3)) false)
    (by simp [jointPs]))
  simp only [nameP, attr, elt, originP] at en et ep ec eg ea
  constructor
  · simpa [Val.toJoint, Val.field, en, Val.toStr] using hn
  · simpa [Val.toJoint, Val.field, et, Val.toStr] using ht
  · have : t ∈ jointTypes := by simpa [jointValid, et] using h3
    simpa only [Val.toJoint, Val.field, et, Val.toStr, jointTypes] using this
  · simpa [Val.toJoint, Val.field, ep, Val.toStr] using hp
  · simpa [Val.toJoint, Val.field, ec, Val.toStr] using hc
  · simpa only [Val.toJoint, Val.field, eg] using hg
  · have : (o "axis").toV3 = a := by
      rw [ea]
      cases a with
      | none => rfl
      | some w => exact toV3_vec w
    simpa only [Val.toJoint, Val.field, this] using ha

/-- A joint element that declares a joint, and whose other parts can be read, is accepted. -/
theorem joint_accepts {x : Xml} (hx : x.Ok) {j : UJoint} (h : DeclaresJoint lex x j)
    (he : ∀ p ∈ jointPs lex, p.xml ∉ ["name", "type", "origin", "axis", "parent", "child"] →
      ∃ v, p.Means x v) : ∃ v, (jointT lex).ofXml x = .ok v := by
  have hm : ∀ p ∈ jointPs lex, ∃ v, p.Means x v := by
    intro p hp
    by_cases hk : p.xml ∈ ["name", "type", "origin", "axis", "parent", "child"]
    · simp only [jointPs, List.mem_cons, List.not_mem_nil, or_false] at hp
      rcases hp with rfl | rfl | rfl | rfl | rfl | rfl | rfl | rfl | rfl | rfl | rfl
      · exact ⟨_, strAttr_means.mpr ⟨_, h.name, rfl⟩⟩
      · exact ⟨_, strAttr_means.mpr ⟨_, h.type, rfl⟩⟩
      · exact pose_exists hx h.origin
      · exact ⟨_, axis_means.mpr ⟨_, h.axis, rfl⟩⟩
      · exact ⟨_, end_means.mpr ⟨_, h.parent, rfl⟩⟩
      · exact ⟨_, end_means.mpr ⟨_, h.child, rfl⟩⟩
      all_goals simp [elt] at hk
    · exact he p hp hk
  obtain ⟨o, ho⟩ := read_complete (jointOk lex) hx.attrs hm
  refine ⟨.obj o, objectT_ok.mpr ⟨o, o, ho, rfl, ?_, rfl⟩⟩
  obtain ⟨m, -⟩ := (read_iff (jointOk lex) hx.attrs o).mp ho
  obtain ⟨t, ht, et⟩ := strAttr_means.mp (m (attr "type" strT) (by simp [jointPs]))
  simp only [attr] at et
  have hl := h.legal
  rw [h.type] at ht
  rw [Option.some_injective _ ht] at hl
  simp only [jointValid, et]
  simpa [jointTypes] using hl

theorem link_reads {x : Xml} (hx : x.Ok) {v : Val} (h : (linkT lex).ofXml x = .ok v) :
    x.get "name" = some (v.field "name").toStr ∧ ∀ p ∈ linkPs lex, ∃ w, p.Means x w := by
  obtain ⟨o, o', h1, h2, -, rfl⟩ := objectT_ok.mp h
  obtain rfl := Except.ok.inj h2
  obtain ⟨m, -⟩ := (read_iff (linkOk lex) hx.attrs o).mp h1
  refine ⟨?_, fun p hp => ⟨_, m p hp⟩⟩
  obtain ⟨n, hn, en⟩ := strAttr_means.mp (m nameP (by simp [linkPs]))
  simp only [nameP, attr] at en
  simpa [Val.field, en, Val.toStr] using hn

theorem link_accepts {x : Xml} (hx : x.Ok) {n : String} (h : x.get "name" = some n)
    (he : ∀ p ∈ linkPs lex, p.xml ≠ "name" → ∃ v, p.Means x v) :
    ∃ v, (linkT lex).ofXml x = .ok v := by
  obtain ⟨o, ho⟩ := read_complete (linkOk lex) hx.attrs (fun p hp => by
    by_cases hk : p.xml = "name"
    · simp only [linkPs, List.mem_cons, List.not_mem_nil, or_false] at hp
      rcases hp with rfl | rfl | rfl | rfl | rfl
      · exact ⟨_, strAttr_means.mpr ⟨_, h, rfl⟩⟩
      all_goals simp [elt, agg, originP] at hk
    · exact he p hp hk)
  exact ⟨.obj o, objectT_ok.mpr ⟨o, o, ho, rfl, rfl, rfl⟩⟩

theorem vec3_unique {s : String} {v w : V3} (h : Vec3 lex s v) (h' : Vec3 lex s w) : v = w := by
  obtain ⟨a, b, c, e, h1, h2, h3⟩ := h
  obtain ⟨a', b', c', e', h1', h2', h3'⟩ := h'
  rw [e] at e'
  simp only [List.cons.injEq, and_true] at e'
  obtain ⟨rfl, rfl, rfl⟩ := e'
  rw [h1] at h1'; rw [h2] at h2'; rw [h3] at h3'
  funext i
  fin_cases i
  · exact Option.some_injective _ h1'
  · exact Option.some_injective _ h2'
  · exact Option.some_injective _ h3'

theorem vec3Attr_unique {x : Xml} {k : String} {v w : V3} (h : Vec3Attr lex x k v)
    (h' : Vec3Attr lex x k w) : v = w := by
  unfold Vec3Attr at h h'
  cases hg : x.get k with
  | none => rw [hg] at h h'; exact h.trans h'.symm
  | some s => rw [hg] at h h'; exact vec3_unique h h'

theorem declaresJoint_unique {x : Xml} {i j : UJoint} (h : DeclaresJoint lex x i)
    (h' : DeclaresJoint lex x j) : i = j := by
  have e1 := h.name.symm.trans h'.name
  have e2 := h.type.symm.trans h'.type
  have e3 : ∀ t a b, DeclaresEnd x t a → DeclaresEnd x t b → a = b := by
    rintro t a b ⟨c, hc, rfl⟩ ⟨d, hd, rfl⟩
    rw [hc] at hd
    rw [Option.some_injective _ hd]
  have e4 : i.origin = j.origin := by
    have a := h.origin
    have b := h'.origin
    unfold DeclaresOrigin at a b
    cases hc : x.child "origin" with
    | none => rw [hc] at a b; exact a.trans b.symm
    | some c =>
      rw [hc] at a b
      obtain ⟨w, z, hw, h1, h2⟩ := a
      obtain ⟨w', z', hw', h1', h2'⟩ := b
      rw [hw, hw', vec3Attr_unique h1 h1', vec3Attr_unique h2 h2']
  have e5 : i.axis = j.axis := by
    have a := h.axis
    have b := h'.axis
    unfold DeclaresAxis at a b
    cases hc : x.child "axis" with
    | none => rw [hc] at a b; exact a.trans b.symm
    | some c =>
      rw [hc] at a b
      obtain ⟨s, w, hs, hw, h1⟩ := a
      obtain ⟨s', w', hs', hw', h1'⟩ := b
      rw [hs] at hs'
      obtain rfl := Option.some_injective _ hs'
      rw [hw, hw', vec3_unique h1 h1']
  obtain ⟨_, _, _, _, _, _⟩ := i
  obtain ⟨_, _, _, _, _, _⟩ := j
  simp only [Option.some.injEq] at e1 e2
  simp only [UJoint.mk.injEq]
  exact ⟨e1, e2, e3 _ _ _ h.parent h'.parent, e3 _ _ _ h.child h'.child, e4, e5⟩

theorem forall₂_unique {α β : Type} {r : α → β → Prop} (hr : ∀ a b c, r a b → r a c → b = c)
    {l : List α} {m n : List β} (h : List.Forall₂ r l m) (h' : List.Forall₂ r l n) : m = n := by
  induction h generalizing n with
  | nil => cases h'; rfl
  | cons a _ ih => cases h' with | cons b hb => rw [hr _ _ _ a b, ih hb]

/-- A document declares at most one robot. -/
theorem declares_unique {doc : Xml} {u v : Urdf} (h : Declares lex doc u) (h' : Declares lex doc v) :
    u = v := by
  obtain ⟨_, _⟩ := u
  obtain ⟨_, _⟩ := v
  rw [Urdf.mk.injEq]
  exact ⟨forall₂_unique (fun _ _ _ a b => Option.some_injective _ (a.symm.trans b)) h.links h'.links,
    forall₂_unique (r := DeclaresJoint lex) (fun _ _ _ a b => declaresJoint_unique a b) h.joints
      h'.joints⟩

end Read

section Robot
variable {lex : Lex}

theorem agg_means {t : VType} {k : String} {x : Xml} {v : Val} : (agg k t).Means x v ↔
    ∃ vs, v = .list vs ∧ List.Forall₂ (fun c w => t.ofXml c = .ok w) (x.all k) vs := Iff.rfl

theorem forall₂_exists {α β : Type} {r : α → β → Prop} : ∀ (l : List α),
    (∀ a ∈ l, ∃ b, r a b) → ∃ m, List.Forall₂ r l m
  | [], _ => ⟨[], .nil⟩
  | a :: l, h => by
    obtain ⟨b, hb⟩ := h a (by simp)
    obtain ⟨m, hm⟩ := forall₂_exists l fun c hc => h c (List.mem_cons_of_mem _ hc)
    exact ⟨b :: m, .cons hb hm⟩

theorem forall₂_mem {α β : Type} {r : α → β → Prop} {l : List α} {m : List β}
    (h : List.Forall₂ r l m) : ∀ a ∈ l, ∃ b, r a b := by
  induction h with
  | nil => simp
  | cons h _ ih =>
    intro a ha
    rcases List.mem_cons.mp ha with rfl | ha
    · exact ⟨_, h⟩
    · exact ih a ha

theorem forall₂_map {α β γ : Type} {r : α → β → Prop} {s : α → γ → Prop} {f : β → γ} {l : List α}
    {m : List β} (h : List.Forall₂ r l m) (hrs : ∀ a ∈ l, ∀ b, r a b → s a (f b)) :
    List.Forall₂ s l (m.map f) := by
  induction h with
  | nil => exact .nil
  | cons h _ ih =>
    exact .cons (hrs _ (by simp) _ h) (ih fun a ha b => hrs a (List.mem_cons_of_mem _ ha) b)

/-- **C111.** A well-formed document is accepted exactly if it has a name, at most version 1.0,
declares a robot and everything else in its schema can be read; and what is returned is the robot
that it declares: the links and the joints in document order, each joint with the name, the type,
the parent, the child, the frame and the axis of its element. -/
theorem urdf_reads {doc : Xml} (hd : doc.Ok) (u : Urdf) :
    parseUrdf lex doc = .ok u ↔ Header doc ∧ Declares lex doc u ∧ Extras lex doc := by
  have sound : ∀ w, parseUrdf lex doc = .ok w → Header doc ∧ Declares lex doc w ∧ Extras lex doc := by
    intro w h
    unfold parseUrdf at h
    cases hr : (robotT lex).ofXml doc with
    | error e => simp [hr] at h
    | ok v =>
      rw [hr] at h
      obtain rfl := Except.ok.inj h
      obtain ⟨o, o', h1, h2, -, rfl⟩ := objectT_ok.mp hr
      obtain ⟨m, -⟩ := (read_iff (robotOk lex) hd.attrs o).mp h1
      obtain ⟨n, hn, -⟩ := strAttr_means.mp (m (attr "name" strT) (by simp [robotPs]))
      have hv := m (attr "version" strT false) (by simp [robotPs])
      obtain ⟨ls, el, hl⟩ := agg_means.mp (m (agg "link" (linkT lex)) (by simp [robotPs]))
      obtain ⟨js, ej, hj⟩ := agg_means.mp (m (agg "joint" (jointT lex)) (by simp [robotPs]))
      obtain ⟨ts, -, ht⟩ := agg_means.mp (m (agg "transmission" (transmissionT lex))
        (by simp [robotPs]))
      obtain ⟨ms, -, hm⟩ := agg_means.mp (m (agg "material" (materialT lex)) (by simp [robotPs]))
      have hsame : ∀ k, k ≠ "version" → o' k = o k := by
        intro k hk
        unfold robotPost at h2
        split at h2
        · obtain rfl := Except.ok.inj h2
          exact Function.update_of_ne hk _ _
        · obtain rfl := Except.ok.inj h2; rfl
        · cases h2
      simp only [agg] at el ej
      have el' : o' "links" = .list ls := (hsame _ (by decide)).trans el
      have ej' : o' "joints" = .list js := (hsame _ (by decide)).trans ej
      refine ⟨⟨by rw [hn]; simp, ?_⟩, ⟨?_, ?_⟩, ⟨?_, ?_, forall₂_mem ht, forall₂_mem hm⟩⟩
      · simp only [Param.Means, attr, strT, Param.Absent] at hv
        cases hg : doc.get "version" with
        | none => exact Or.inl rfl
        | some s =>
          right
          rw [hg] at hv
          have hv : o "version" = .str s := by simpa [eq_comm] using hv
          unfold robotPost at h2
          rw [hv] at h2
          split at h2
          · next h => cases h
          · next h => rw [Val.str.injEq] at h; rw [h]
          · cases h2
      · simp only [Val.toUrdf, Val.field, el', Val.items]
        exact forall₂_map hl fun x hx v hv => (link_reads (hd.all hx) hv).1
      · simp only [Val.toUrdf, Val.field, ej', Val.items]
        exact forall₂_map hj fun x hx v hv => (joint_reads (hd.all hx) hv).1
      · intro x hx p hp _
        obtain ⟨v, hv⟩ := forall₂_mem hl x hx
        exact (link_reads (hd.all hx) hv).2 p hp
      · intro x hx p hp _
        obtain ⟨v, hv⟩ := forall₂_mem hj x hx
        exact (joint_reads (hd.all hx) hv).2 p hp
  refine ⟨sound u, fun ⟨⟨hn, hv⟩, hdec, hx⟩ => ?_⟩
  have hm : ∀ p ∈ robotPs lex, ∃ v, p.Means doc v := by
    intro p hp
    simp only [robotPs, List.mem_cons, List.not_mem_nil, or_false] at hp
    rcases hp with rfl | rfl | rfl | rfl | rfl | rfl | rfl
    · obtain ⟨n, hn⟩ := Option.ne_none_iff_exists'.mp hn
      exact ⟨_, strAttr_means.mpr ⟨n, hn, rfl⟩⟩
    · rcases hv with hv | hv
      · exact ⟨.none, by simp [Param.Means, attr, hv, Param.Absent]⟩
      · exact ⟨.str "1.0", by simp [Param.Means, attr, hv, strT]⟩
    · obtain ⟨m, hm⟩ := forall₂_exists (r := fun c w => (linkT lex).ofXml c = .ok w) (doc.all "link")
        fun x hxm => by
          obtain ⟨n, hn⟩ := forall₂_mem hdec.links x hxm
          exact link_accepts (hd.all hxm) hn (hx.links x hxm)
      exact ⟨_, m, rfl, hm⟩
    · obtain ⟨m, hm⟩ := forall₂_exists (r := fun c w => (jointT lex).ofXml c = .ok w)
        (doc.all "joint") fun x hxm => by
          obtain ⟨j, hj⟩ := forall₂_mem hdec.joints x hxm
          exact joint_accepts (hd.all hxm) hj (hx.joints x hxm)
      exact ⟨_, m, rfl, hm⟩
    · obtain ⟨m, hm⟩ := forall₂_exists (r := fun c w => rawT.ofXml c = .ok w) (doc.all "gazebo")
        fun x _ => ⟨_, rfl⟩
      exact ⟨_, m, rfl, hm⟩
    · obtain ⟨m, hm⟩ := forall₂_exists (r := fun c w => (transmissionT lex).ofXml c = .ok w)
        (doc.all "transmission") hx.transmissions
      exact ⟨_, m, rfl, hm⟩
    · obtain ⟨m, hm⟩ := forall₂_exists (r := fun c w => (materialT lex).ofXml c = .ok w)
        (doc.all "material") hx.materials
      exact ⟨_, m, rfl, hm⟩
  obtain ⟨o, ho⟩ := read_complete (robotOk lex) hd.attrs hm
  obtain ⟨m, -⟩ := (read_iff (robotOk lex) hd.attrs o).mp ho
  have hver := m (attr "version" strT false) (by simp [robotPs])
  have hpost : ∃ o', robotPost o = .ok o' := by
    simp only [Param.Means, attr, strT, Param.Absent] at hver
    unfold robotPost
    rcases hv with hv | hv
    · rw [hv] at hver
      exact ⟨_, by rw [hver.2]⟩
    · rw [hv] at hver
      have : o "version" = .str "1.0" := by simpa [eq_comm] using hver
      exact ⟨o, by rw [this]; rfl⟩
  obtain ⟨o', ho'⟩ := hpost
  have hok : (robotT lex).ofXml doc = .ok (.obj o') := objectT_ok.mpr ⟨o, o', ho, ho', rfl, rfl⟩
  have hp : parseUrdf lex doc = .ok (Val.obj o').toUrdf := by unfold parseUrdf; rw [hok]
  rw [hp, declares_unique (sound _ hp).2.1 hdec]

end Robot
end Verif.Kin.Urdfx
