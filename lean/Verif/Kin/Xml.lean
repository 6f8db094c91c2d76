import Verif.Kin.Robot

/-!
# Model of `torchkin/torchkin/third_party/urdf_parser_py`

`xml_reflection/core.py` reads an XML tree into Python objects with the help of a schema
(`Reflection`); `urdf.py` gives the schemas of URDF.  The XML tree is what lxml delivers: the text is
the one before the first child, and entities, namespaces and processing instructions are not
modelled.  The lexer `Lex` is Python's `float` (restricted to finite numbers) and `str.split`.
Messages on stderr (`on_error`), the paths of error messages, YAML and `parent_cls` (which no URDF
schema uses) are left out.
-/

namespace Verif.Kin.Urdfx
open Verif.Geometry

/-- Nodes of lxml: elements with tag, attributes, text and children, and comments. -/
inductive Xml where
  | elem (tag : String) (attrs : List (String × String)) (text : Option String) (kids : List Xml)
  | comment (s : String)

/-- `node.tag`; of a comment it is no string. -/
def Xml.tag : Xml → Option String
  | .elem t _ _ _ => some t
  | .comment _ => none

/-- `node.attrib`. -/
def Xml.attrs : Xml → List (String × String)
  | .elem _ a _ _ => a
  | .comment _ => []

/-- `node.text`. -/
def Xml.text : Xml → Option String
  | .elem _ _ t _ => t
  | .comment s => some s

/-- `node.getchildren()`. -/
def Xml.kids : Xml → List Xml
  | .elem _ _ _ k => k
  | .comment _ => []

/-- `node.get(key)`: `None` if the attribute is missing. -/
def Xml.get (x : Xml) (key : String) : Option String := x.attrs.lookup key

/-- `xml_children` (xml_reflection/basics.py L34-40): the children that are not comments. -/
def Xml.children (x : Xml) : List Xml :=
  x.kids.filter fun k => match k with | .comment _ => false | _ => true

/-- The exceptions: `ParseError` (core.py L117-122) and the exceptions of Python that it does not
wrap. -/
inductive XErr where
  | parse
  | value
  | typ
  | attribute
  | assertion
  | other
deriving DecidableEq

/-- Python's `float` on a string (`none`: `ValueError`) and `str.split`. -/
structure Lex where
  float : String → Option ℝ
  words : String → List String

/-- The values that the parser stores in the attributes of an object. -/
inductive Val where
  | none
  | str (s : String)
  | num (x : ℝ)
  | vec (v : List ℝ)
  | obj (fields : String → Val)
  | list (l : List Val)
  | raw (x : Xml)

/-- `getattr(obj, var)`. -/
def Val.field : Val → String → Val
  | .obj f, v => f v
  | _, _ => .none

/-- `ValueType` (core.py L125-141): `from_string`, on a string or `None`, and `from_xml`. -/
structure VType where
  ofText : Option String → Except XErr Val
  ofXml : Xml → Except XErr Val

/-- `BasicType(str)` (core.py L144-152): `str(None)` is the string `None`. -/
def strT : VType where
  ofText s := .ok (.str (s.getD "None"))
  ofXml x := .ok (.str (x.text.getD "None"))

/-- `float(value)` (core.py L152): `float(None)` is a `TypeError`. -/
def floatOf (lex : Lex) : Option String → Except XErr Val
  | none => .error .typ
  | some s => match lex.float s with | some x => .ok (.num x) | none => .error .value

/-- `BasicType(float)` (core.py L144-152). -/
def floatT (lex : Lex) : VType where
  ofText := floatOf lex
  ofXml x := floatOf lex x.text

/-- `VectorType.from_string` (core.py L159-160, L170-182): the number of words is checked
before they are converted. -/
def vectorOf (lex : Lex) (n : ℕ) : Option String → Except XErr Val
  | none => .error .attribute
  | some s =>
    if (lex.words s).length ≠ n then .error .assertion
    else match (lex.words s).mapM lex.float with
      | some v => .ok (.vec v)
      | none => .error .value

/-- `vector3` and `vector4` (core.py L675-677). -/
def vectorT (lex : Lex) (n : ℕ) : VType where
  ofText := vectorOf lex n
  ofXml x := vectorOf lex n x.text

/-- `RawType.from_xml` (core.py L190-191). -/
def rawT : VType where
  ofText _ := .error .other
  ofXml x := .ok (.raw x)

/-- `SimpleElementType.from_xml` (core.py L213-215): the attribute of the element, which may be
missing. -/
def simpleT (attr : String) (t : VType) : VType where
  ofText := t.ofText
  ofXml x := t.ofText (x.get attr)

/-- `Attribute`, `Element` and `AggregateElement` (core.py L317-390). -/
inductive PKind where
  | attribute
  | scalar
  | aggregate
deriving DecidableEq

/-- `Param` (core.py L285-315). -/
structure Param where
  kind : PKind
  xml : String
  var : String
  type : VType
  required : Bool
  default : Val := .none

/-- `Attribute(xml_var, value_type, required, default)` (core.py L317-320). -/
def attr (xml : String) (t : VType) (required : Bool := true) (default : Val := .none) : Param :=
  ⟨.attribute, xml, xml, t, required, default⟩

/-- `Element(xml_var, value_type, required)` (core.py L348-353). -/
def elt (xml : String) (t : VType) (required : Bool := true) : Param :=
  ⟨.scalar, xml, xml, t, required, .none⟩

/-- `AggregateElement(xml_var, value_type)` (core.py L377-383): the variable is the plural. -/
def agg (xml : String) (t : VType) : Param := ⟨.aggregate, xml, xml ++ "s", t, false, .none⟩

/-- `attribute_map.get(name)` (core.py L426-433). -/
def attribute? (ps : List Param) (name : String) : Option Param :=
  ps.find? fun p => p.kind = .attribute && p.xml = name

/-- `element_map.get(tag)` (core.py L435-453). -/
def element? (ps : List Param) (tag : String) : Option Param :=
  ps.find? fun p => p.kind ≠ .attribute && p.xml = tag

/-- Every exception but `ParseError` becomes a `ParseError` (core.py L488-497). -/
def wrap {α : Type} : Except XErr α → Except XErr α
  | .ok a => .ok a
  | .error _ => .error .parse

/-- The state of `set_from_xml`: the object and the names in `unset_attributes` or
`unset_scalars`. -/
structure St where
  obj : String → Val
  unset : List String

/-- The loop over the attributes of the node (core.py L484-499). -/
def readAttrs (ps : List Param) : List (String × String) → St → Except XErr St
  | [], st => .ok st
  | (name, value) :: rest, st =>
    match attribute? ps name with
    | none => readAttrs ps rest st
    | some p =>
      match wrap (p.type.ofText (some value)) with
      | .error e => .error e
      | .ok v => readAttrs ps rest ⟨Function.update st.obj p.var v, st.unset.erase name⟩

/-- `get_aggregate_list(xml_var).append(obj)` (core.py L622-626, L634-639). -/
def Val.append : Val → Val → Val
  | .list l, v => .list (l ++ [v])
  | x, _ => x

/-- The loop over the children of the node (core.py L502-516); a second scalar element of the same
name is reported on stderr and dropped. -/
def readKids (ps : List Param) : List Xml → St → Except XErr St
  | [], st => .ok st
  | c :: rest, st =>
    match c.tag.bind (element? ps) with
    | none => readKids ps rest st
    | some p =>
      if p.kind = .aggregate then
        match p.type.ofXml c with
        | .error e => .error e
        | .ok v => readKids ps rest ⟨Function.update st.obj p.var ((st.obj p.var).append v), st.unset⟩
      else if p.xml ∈ st.unset then
        match p.type.ofXml c with
        | .error e => .error e
        | .ok v => readKids ps rest ⟨Function.update st.obj p.var v, st.unset.erase p.xml⟩
      else readKids ps rest st

/-- `set_default` for the names that are left (core.py L310-314, L389-390, L522-536). -/
def setDefaults (find : String → Option Param) : List String → (String → Val) →
    Except XErr (String → Val)
  | [], o => .ok o
  | n :: rest, o =>
    match find n with
    | none => .error .attribute
    | some p =>
      if p.required then .error .parse
      else setDefaults find rest (Function.update o p.var p.default)

/-- The names of the parameters of a kind. -/
def names (ps : List Param) (k : PKind) : List String := (ps.filter fun p => p.kind = k).map Param.xml

/-- The object before reading: the constructors set the variables of the aggregates to empty lists,
and the other ones are overwritten. -/
def blank (ps : List Param) (var : String) : Val :=
  if ps.any fun p => p.kind = .aggregate && p.var = var then .list [] else .none

/-- `Reflection.set_from_xml` (core.py L455-544). -/
def setFromXml (ps : List Param) (node : Xml) : Except XErr (String → Val) :=
  match readAttrs ps node.attrs ⟨blank ps, names ps .attribute⟩ with
  | .error e => .error e
  | .ok a =>
    match readKids ps node.children ⟨a.obj, names ps .scalar⟩ with
    | .error e => .error e
    | .ok b =>
      match setDefaults (attribute? ps) a.unset b.obj with
      | .error e => .error e
      | .ok o => setDefaults (element? ps) b.unset o

/-- `ObjectType.from_xml` and `Object.read_xml` (core.py L226-229, L593-601) for a class with the
given schema, `post_read_xml` and `check_valid`. -/
def objectT (ps : List Param) (post : (String → Val) → Except XErr (String → Val) := .ok)
    (valid : (String → Val) → Bool := fun _ => true) : VType where
  ofText _ := .error .attribute
  ofXml x :=
    match setFromXml ps x with
    | .error e => .error e
    | .ok o =>
      match post o with
      | .error e => .error e
      | .ok o => if valid o then .ok (.obj o) else .error .parse

/-- `len(list) > 0`. -/
def Val.nonempty : Val → Bool
  | .list (_ :: _) => true
  | _ => false

section Schemas
variable (lex : Lex)

/-- The default `[0, 0, 0]`. -/
def zero3 : Val := .vec [0, 0, 0]

/-- `Pose` (urdf.py L16-42); its `check_valid` (three numbers each) always holds after reading. -/
def poseT : VType := objectT [attr "xyz" (vectorT lex 3) false zero3,
  attr "rpy" (vectorT lex 3) false zero3]

/-- `name_attribute`, `origin_element` (urdf.py L46-47). -/
def nameP : Param := attr "name" strT
def originP : Param := elt "origin" (poseT lex) false

/-- `Color`, `JointDynamics`, `Box`, `Cylinder`, `Sphere`, `Mesh` (urdf.py L50-125). -/
def colorT : VType := objectT [attr "rgba" (vectorT lex 4)]
def dynamicsT : VType := objectT [attr "damping" (floatT lex) false,
  attr "friction" (floatT lex) false]
def boxT : VType := objectT [attr "size" (vectorT lex 3)]
def cylinderT : VType := objectT [attr "radius" (floatT lex), attr "length" (floatT lex)]
def sphereT : VType := objectT [attr "radius" (floatT lex)]
def meshT : VType := objectT [attr "filename" strT, attr "scale" (vectorT lex 3) false]

/-- `GeometricType.from_xml` (urdf.py L128-140, L148) and `FactoryType.from_xml` (core.py L244-249). -/
def geometricT : VType where
  ofText _ := .error .attribute
  ofXml x :=
    match x.children with
    | [c] =>
      match c.tag with
      | some "box" => (boxT lex).ofXml c
      | some "cylinder" => (cylinderT lex).ofXml c
      | some "sphere" => (sphereT lex).ofXml c
      | some "mesh" => (meshT lex).ofXml c
      | _ => .error .other
    | _ => .error .assertion

/-- `Collision`, `Texture`, `Material`, `LinkMaterial`, `Visual` (urdf.py L151-207); an incomplete
material is only reported on stderr. -/
def collisionT : VType := objectT [originP lex, elt "geometry" (geometricT lex)]
def textureT : VType := objectT [attr "filename" strT]
def materialT : VType := objectT [nameP, elt "color" (colorT lex) false, elt "texture" textureT false]
def visualT : VType := objectT [originP lex, elt "geometry" (geometricT lex),
  elt "material" (materialT lex) false]

/-- `Inertia`, `Inertial` (urdf.py L210-243). -/
def inertiaT : VType := objectT (["ixx", "ixy", "ixz", "iyy", "iyz", "izz"].map
  fun k => attr k (floatT lex))
def inertialT : VType := objectT [originP lex, elt "mass" (simpleT "value" (floatT lex)),
  elt "inertia" (inertiaT lex) false]

/-- `JointCalibration`, `JointLimit`, `JointMimic`, `SafetyController` (urdf.py L247-304). -/
def calibrationT : VType := objectT [attr "rising" (floatT lex) false (.num 0),
  attr "falling" (floatT lex) false (.num 0)]
def limitT : VType := objectT [attr "effort" (floatT lex), attr "lower" (floatT lex) false (.num 0),
  attr "upper" (floatT lex) false (.num 0), attr "velocity" (floatT lex)]
def mimicT : VType := objectT [attr "joint" strT, attr "multiplier" (floatT lex) false,
  attr "offset" (floatT lex) false]
def safetyT : VType := objectT [attr "k_velocity" (floatT lex),
  attr "k_position" (floatT lex) false (.num 0), attr "soft_lower_limit" (floatT lex) false (.num 0),
  attr "soft_upper_limit" (floatT lex) false (.num 0)]

/-- `Joint.TYPES` (urdf.py L308-309). -/
def jointTypes : List String :=
  ["unknown", "revolute", "continuous", "prismatic", "floating", "planar", "fixed"]

/-- `Joint.check_valid` (urdf.py L327-328). -/
def jointValid (o : String → Val) : Bool :=
  match o "type" with | .str t => jointTypes.contains t | _ => false

/-- The schema of `Joint` (urdf.py L337-349). -/
def jointPs : List Param := [nameP, attr "type" strT, originP lex,
  elt "axis" (simpleT "xyz" (vectorT lex 3)) false, elt "parent" (simpleT "link" strT),
  elt "child" (simpleT "link" strT), elt "limit" (limitT lex) false,
  elt "dynamics" (dynamicsT lex) false, elt "safety_controller" (safetyT lex) false,
  elt "calibration" (calibrationT lex) false, elt "mimic" (mimicT lex) false]
def jointT : VType := objectT (jointPs lex) .ok jointValid

/-- The schema of `Link` (urdf.py L391-397). -/
def linkPs : List Param := [nameP, originP lex, agg "visual" (visualT lex),
  agg "collision" (collisionT lex), elt "inertial" (inertialT lex) false]
def linkT : VType := objectT (linkPs lex)

/-- `PR2Transmission`, `Actuator`, `TransmissionJoint`, `Transmission` (urdf.py L400-466). -/
def pr2T : VType := objectT [nameP, attr "type" strT, elt "joint" (simpleT "name" strT),
  elt "actuator" (simpleT "name" strT), elt "mechanicalReduction" (floatT lex)]
def actuatorT : VType := objectT [nameP, elt "mechanicalReduction" (floatT lex) false]
def transJointT : VType := objectT [nameP, agg "hardwareInterface" strT] .ok
  fun o => (o "hardwareInterfaces").nonempty
def newTransT : VType := objectT [nameP, elt "type" strT, agg "joint" transJointT,
  agg "actuator" (actuatorT lex)] .ok fun o => (o "joints").nonempty && (o "actuators").nonempty

/-- `DuckTypedFactory.from_xml` (core.py L268-279) with the types of urdf.py L468-470. -/
def transmissionT : VType where
  ofText _ := .error .attribute
  ofXml x :=
    match (newTransT lex).ofXml x with
    | .ok v => .ok v
    | .error _ =>
      match (pr2T lex).ofXml x with
      | .ok v => .ok v
      | .error _ => .error .parse

/-- `Robot.post_read_xml` (urdf.py L542-557): without a version it is `1.0`, and any other one is
some `ValueError`. -/
def robotPost (o : String → Val) : Except XErr (String → Val) :=
  match o "version" with
  | .none => .ok (Function.update o "version" (.str "1.0"))
  | .str "1.0" => .ok o
  | _ => .error .value

/-- The schema of `Robot` (urdf.py L560-568). -/
def robotPs : List Param := [attr "name" strT, attr "version" strT false, agg "link" (linkT lex),
  agg "joint" (jointT lex), agg "gazebo" rawT, agg "transmission" (transmissionT lex),
  agg "material" (materialT lex)]
def robotT : VType := objectT (robotPs lex) robotPost

end Schemas

/-- A list of three numbers as a vector (`new_tensor`). -/
def Val.toV3 : Val → Option V3
  | .vec [a, b, c] => some ![a, b, c]
  | _ => Option.none

/-- A string. -/
def Val.toStr : Val → String
  | .str s => s
  | _ => ""

/-- The items of a list. -/
def Val.items : Val → List Val
  | .list l => l
  | _ => []

/-- What `from_urdf_file` reads of an origin (robot.py L61-69). -/
def Val.toPose : Val → Option UPose
  | .none => Option.none
  | v => some ⟨(v.field "xyz").toV3, (v.field "rpy").toV3⟩

/-- What `from_urdf_file` reads of a joint (robot.py L91-114). -/
def Val.toJoint (v : Val) : UJoint where
  name := (v.field "name").toStr
  type := (v.field "type").toStr
  parent := (v.field "parent").toStr
  child := (v.field "child").toStr
  origin := (v.field "origin").toPose
  axis := (v.field "axis").toV3

/-- What `from_urdf_file` reads of the model (robot.py L85-114). -/
def Val.toUrdf (v : Val) : Urdf where
  links := (v.field "links").items.map fun l => (l.field "name").toStr
  joints := (v.field "joints").items.map Val.toJoint

/-- `Object.from_xml_string` on a parsed document (core.py L603-618): the tag of the root element is
not looked at. -/
def parseUrdf (lex : Lex) (doc : Xml) : Except XErr Urdf :=
  match (robotT lex).ofXml doc with
  | .error e => .error e
  | .ok v => .ok v.toUrdf

/-- `Robot.from_urdf_file` (robot.py L39-195) on a parsed document; `none` if the document is not
accepted. -/
noncomputable def fromDoc (lex : Lex) (doc : Xml) : Option ((u : Urdf) × Robot u) :=
  match parseUrdf lex doc with
  | .error _ => none
  | .ok u => (fromUrdf u).map fun r => ⟨u, r⟩

end Verif.Kin.Urdfx
