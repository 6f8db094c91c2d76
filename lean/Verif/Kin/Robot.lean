import Verif.Geometry.Backward
import Mathlib.Data.Finset.Sort
import Mathlib.Data.List.FinRange
import Mathlib.Data.Fintype.Card

/-!
# Model of `torchkin/torchkin/robot.py`, `joint.py` and `forward_kinematics.py`

A URDF is the list of link names and the list of joints, as parsed by `urdf_parser_py` (which `Xml`
models).  Link objects are identified with their names and joint objects with their
positions in the file; names are assumed distinct where it matters (`Urdf.WF`), so iterating over
`link_map` and `joint_map` is iterating over the two lists.  The mutable fields of the link and
joint objects are a `Heap`.  Exceptions are `none`.  One batch element at a time.
-/

namespace Verif.Kin
open Verif.Geometry Matrix

/-- `urdf.Pose`: `xyz` and `rpy` may be absent. -/
structure UPose where
  xyz : Option V3
  rpy : Option V3

/-- `urdf.Joint`, the fields that `from_urdf_file` reads. -/
structure UJoint where
  name : String
  type : String
  parent : String
  child : String
  origin : Option UPose
  axis : Option V3

/-- `urdf.URDF`, the fields that `from_urdf_file` reads. -/
structure Urdf where
  links : List String
  joints : List UJoint

/-- Joint objects, identified with positions in the file. -/
abbrev Urdf.J (u : Urdf) := Fin u.joints.length

/-- The URDF joint of a joint object. -/
def Urdf.jnt (u : Urdf) (j : u.J) : UJoint := u.joints.get j

/-- `URDF.get_root` (third_party/urdf_parser_py/urdf.py L533-540): the link that is no joint's
child; more than one or none fails an assertion. -/
def Urdf.getRoot (u : Urdf) : Option String :=
  match u.links.filter (fun l => !(u.joints.any fun j => j.child == l)) with
  | [r] => some r
  | _ => none

/-- The joint classes that `from_urdf_file` instantiates, with their axis. -/
inductive Kind where
  | fixed
  | revolute (axis : V3)
  | prismatic (axis : V3)

/-- `get_joint_type` (robot.py L51-59) and the axis read for the non-fixed joints (L105); an absent
axis is `new_tensor(None)`, which raises. -/
def UJoint.kind (j : UJoint) : Option Kind :=
  if j.type = "revolute" ∨ j.type = "continuous" then j.axis.map Kind.revolute
  else if j.type = "prismatic" then j.axis.map Kind.prismatic
  else if j.type = "fixed" then some Kind.fixed
  else none

/-- `isinstance(joint, FixedJoint)`. -/
def UJoint.isFixed (j : UJoint) : Bool := j.type == "fixed"

/-- The rotation of `get_origin` (robot.py L70-81) for roll, pitch, yaw. -/
noncomputable def rpyRot (rpy : V3) : M3 :=
  let c3 := Real.cos (rpy 0)
  let c2 := Real.cos (rpy 1)
  let c1 := Real.cos (rpy 2)
  let s3 := Real.sin (rpy 0)
  let s2 := Real.sin (rpy 1)
  let s1 := Real.sin (rpy 2)
  !![c1 * c2, (c1 * s2 * s3) - (c3 * s1), (s1 * s3) + (c1 * c3 * s2);
     c2 * s1, (c1 * c3) + (s1 * s2 * s3), (c3 * s1 * s2) - (c1 * s3);
     -s2, c2 * s3, c2 * c3]

/-- `get_origin` (robot.py L61-83). -/
noncomputable def getOrigin : Option UPose → SE3
  | none => SE3.one
  | some p => ⟨(p.rpy.map rpyRot).getD 1, p.xyz.getD ![0, 0, 0]⟩

/-- The mutable fields: `_parent_link` and `_origin` of the joints, `_child_joints` of the links. -/
structure Heap (u : Urdf) where
  parent : u.J → String
  origin : u.J → SE3
  children : String → List u.J

/-- `create_links` and `create_joints` (robot.py L85-114): every joint, in file order, is appended
to the children of its parent; unknown link names (`KeyError`), unsupported types (`ValueError`)
and missing axes raise. -/
noncomputable def create (u : Urdf) : Option (Heap u) :=
  if (u.joints.all fun j => j.kind.isSome && u.links.contains j.parent && u.links.contains j.child)
  then some {
    parent := fun j => (u.jnt j).parent
    origin := fun j => getOrigin (u.jnt j).origin
    children := fun l => (List.finRange u.joints.length).filter fun j => (u.jnt j).parent = l }
  else none

/-- `link._parent_joint` (robot.py L113): the last joint in the file whose child is the link. -/
def parentJoint (u : Urdf) (l : String) : Option u.J :=
  (List.finRange u.joints.length).reverse.find? fun j => (u.jnt j).child = l

/-- The loop body of `simplify_kinematics_tree` for one child of a fixed joint `j` of `link`
(robot.py L123-128). -/
def moveSub (u : Urdf) (link : String) (j : u.J) (h : Heap u) (k : u.J) : Heap u where
  parent := Function.update h.parent k link
  origin := Function.update h.origin k ((h.origin j).compose (h.origin k))
  children := Function.update h.children link (h.children link ++ [k])

/-- The body of `simplify_kinematics_tree` for one fixed joint (robot.py L119-128). -/
def absorb (u : Urdf) (link : String) (h : Heap u) (j : u.J) : Heap u :=
  let c := (u.jnt j).child
  (h.children c).foldl (moveSub u link j) { h with children := Function.update h.children c [] }

/-- The loop over `link._child_joints` (robot.py L118-128), which grows during the iteration, from
position `i`.  The fuel bounds the number of iterations; `simplify_spec` in `Build` shows that it
is enough. -/
def simplifyLink (u : Urdf) (link : String) : ℕ → ℕ → Heap u → Heap u
  | 0, _, h => h
  | fuel + 1, i, h =>
    match (h.children link)[i]? with
    | none => h
    | some j => simplifyLink u link fuel (i + 1) (if (u.jnt j).isFixed then absorb u link h j else h)

/-- `simplify_kinematics_tree` (robot.py L117-128). -/
def simplify (u : Urdf) (h : Heap u) : Heap u :=
  u.links.foldl (fun h link => simplifyLink u link (u.joints.length + 1) 0 h) h

/-- The loop of `build_kinematics_tree` (robot.py L154-160): `queue` is `joints_to_visit` and `acc`
is `robot._joints`. -/
def bfs (u : Urdf) (h : Heap u) : ℕ → List u.J → List u.J → List u.J
  | 0, _, acc => acc
  | _ + 1, [], acc => acc
  | fuel + 1, j :: queue, acc =>
    if (u.jnt j).isFixed then bfs u h fuel queue acc
    else bfs u h fuel (queue ++ h.children (u.jnt j).child) (acc ++ [j])

/-- `Robot`: `_joints`, `_links`, `_dof`, the heap, and the two caches of each link. -/
structure Robot (u : Urdf) where
  heap : Heap u
  joints : List u.J
  links : List String
  dof : ℕ
  anc : String → List String
  ancJ : String → List ℕ

/-- `joint.id` and `link.id`: positions in `robot.joints` and `robot.links`
(`update_kinematics_tree`, robot.py L131-138; every object is appended once). -/
def Robot.jid {u : Urdf} (r : Robot u) (j : u.J) : ℕ := r.joints.idxOf j
def Robot.lid {u : Urdf} (r : Robot u) (l : String) : ℕ := r.links.idxOf l

/-- The caches built so far: `_ancestor_links` and `_ancestor_non_fixed_joint_ids`. -/
structure Cache where
  anc : String → List String
  ancJ : String → List ℕ

/-- One step of `cache_ancestor_non_fixed_joint_ids` (robot.py L171-183). -/
def cacheStep (u : Urdf) (h : Heap u) (jid : u.J → ℕ) (c : Cache) (l : String) : Cache :=
  match parentJoint u l with
  | none => c
  | some j =>
    let p := h.parent j
    { anc := Function.update c.anc l (c.anc p ++ [p])
      ancJ := Function.update c.ancJ l
        (if (u.jnt j).isFixed then c.ancJ p else c.ancJ p ++ [jid j]) }

/-- `from_urdf_file` (robot.py L39-195), after parsing. -/
noncomputable def fromUrdf (u : Urdf) : Option (Robot u) := do
  let h ← create u
  let h := simplify u h
  let root ← u.getRoot
  let order := bfs u h (u.joints.length + 1) (h.children root) []
  -- the remaining joints, in the order of `joint_map`, must be fixed (L162-169)
  let rest := (List.finRange u.joints.length).filter fun j => !order.contains j
  if rest.all fun j => (u.jnt j).isFixed then
    let joints := order ++ rest
    let links := root :: joints.map fun j => (u.jnt j).child
    let c := links.foldl (cacheStep u h fun j => joints.idxOf j) ⟨fun _ => [], fun _ => []⟩
    some { heap := h, joints := joints, links := links, dof := order.length,
           anc := c.anc, ancJ := c.ancJ }
  else none

/-- `relative_pose` of the joint classes (joint.py L182-185, L215-226, L258-259, L357-370,
L402-403), with the number of arguments checked. -/
noncomputable def relativePose (eps : ℝ) (k : Kind) (origin : SE3) (arg : Option ℝ) : Option SE3 :=
  match k, arg with
  | .fixed, none => some origin
  | .revolute a, some q => some ⟨origin.R * SO3.exp eps (q • a), origin.t⟩
  | .prismatic a, some q => some ⟨origin.R, origin.R *ᵥ (q • a) + origin.t⟩
  | _, _ => none

/-- `Joint._axis` (joint.py L121, L256, L400). -/
def Kind.axis : Kind → Fin 6 → ℝ
  | .fixed => 0
  | .revolute a => SE3.join 0 a
  | .prismatic a => SE3.join a 0

section FK
variable {u : Urdf} (r : Robot u)

/-- `link_ids`: `KeyError` for unknown names (forward_kinematics.py L19-20, robot.py L197-202). -/
def linkIds (names : List String) : Option (List ℕ) :=
  if names.all u.links.contains then some (names.map r.lid) else none

/-- `related_link_ids` (forward_kinematics.py L22-27), sorted without repetition. -/
def relatedIds (names : List String) : List ℕ :=
  ((names.flatMap fun l => (r.anc l).map r.lid) ++ names.map r.lid).toFinset.sort (· ≤ ·)

/-- `joint_ids` (forward_kinematics.py L23-28). -/
def jointIds (names : List String) : List ℕ :=
  (names.flatMap r.ancJ).toFinset.sort (· ≤ ·)

/-- One iteration of `_forward_kinematics_helper` (forward_kinematics.py L42-51). -/
noncomputable def fkStep (eps : ℝ) (q : List ℝ) (poses : ℕ → Option SE3) (id : ℕ) :
    Option (ℕ → Option SE3) := do
  let curr ← r.links[id]?
  let j ← parentJoint u curr
  let k ← (u.jnt j).kind
  let rel ← relativePose eps k (r.heap.origin j)
    (if r.jid j < r.dof then q[r.jid j]? else none)
  let prev ← poses (r.lid (r.heap.parent j))
  some (Function.update poses (r.lid curr) (some (prev.compose rel)))

/-- `_forward_kinematics_helper` (forward_kinematics.py L30-53). -/
noncomputable def fkHelper (eps : ℝ) (names : List String) (q : List ℝ) :
    Option (ℕ → Option SE3) :=
  if q.length = r.dof then
    (relatedIds r names).tail.foldlM (fkStep r eps q)
      (Function.update (fun _ => none) 0 (some SE3.one))
  else none

/-- `forward_kinematics` (forward_kinematics.py L55-57, L139-141). -/
noncomputable def forwardKinematics (eps : ℝ) (names : List String) (q : List ℝ) :
    Option (List SE3) := do
  let ids ← linkIds r names
  let poses ← fkHelper r eps names q
  ids.mapM poses

/-- `_forward_kinematics_backward_helper` (forward_kinematics.py L59-73): the columns of `jposes`;
the loop ends at the first fixed joint. -/
noncomputable def jposesLoop (poses : ℕ → Option SE3) :
    List ℕ → (ℕ → Fin 6 → ℝ) → Option (ℕ → Fin 6 → ℝ)
  | [], cols => some cols
  | id :: ids, cols => do
    let l ← r.links[id]?
    let j ← parentJoint u l
    if r.jid j ≥ r.dof then some cols
    else
      let k ← (u.jnt j).kind
      let pose ← poses (r.lid l)
      jposesLoop poses ids (Function.update cols (r.jid j) (pose.adjoint *ᵥ k.axis))

/-- The 6 x dof Jacobians of the requested links, by columns, and the poses
(`forward_kinematics_spatial_jacobian`, forward_kinematics.py L143-159).  The poses are those of
`SelectedForwardKinematics`, built for the names of all the related links. -/
noncomputable def spatialJacobian (eps : ℝ) (names : List String) (q : List ℝ) :
    Option (List ((ℕ → Fin 6 → ℝ) × SE3)) := do
  let ids ← linkIds r names
  let related := relatedIds r names
  let selected ← related.mapM fun id => r.links[id]?
  let out ← forwardKinematics r eps selected q
  let poses : ℕ → Option SE3 := fun id => (related.zip out).lookup id
  let cols ← jposesLoop r poses related.tail (fun _ => 0)
  ids.mapM fun id => do
    let pose ← poses id
    let l ← r.links[id]?
    some (fun c => if c ∈ r.ancJ l then cols c else 0, pose)

/-- `forward_kinematics_body_jacobian` (forward_kinematics.py L161-168). -/
noncomputable def bodyJacobian (eps : ℝ) (names : List String) (q : List ℝ) :
    Option (List ((ℕ → Fin 6 → ℝ) × SE3)) := do
  let js ← spatialJacobian r eps names q
  some (js.map fun (cols, pose) => (fun c => (pose.inverse).adjoint *ᵥ cols c, pose))

/-- `ForwardKinematics.backward` (forward_kinematics.py L89-119), with one incoming gradient per
requested link: the gradient of the angles. -/
noncomputable def fkBackward (eps : ℝ) (names : List String) (q : List ℝ) (grads : List SE3) :
    Option (ℕ → ℝ) := do
  let ids ← linkIds r names
  let poses ← fkHelper r eps names q
  let rets ← ids.mapM poses
  let cols ← jposesLoop r poses (relatedIds r names).tail (fun _ => 0)
  let ls ← ids.mapM fun id => r.links[id]?
  let gradPose : ℕ → Fin 6 → ℝ := fun c =>
    ((ls.zip (rets.zip grads)).map fun x =>
      if c ∈ r.ancJ x.1 then
        SE3.project ⟨x.2.2.R * x.2.1.Rᵀ + outer3 x.2.2.t x.2.1.t, x.2.2.t⟩
      else 0).sum
  some fun c => if c ∈ jointIds r names then vip (cols c) (gradPose c) else 0

end FK
end Verif.Kin
