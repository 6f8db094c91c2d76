import Verif.Kin.RobotModel

/-!
# Robot models (C109)

The specification is `Dict.get?`, `PathPose` (FK.lean) and `JacobianOf` (KinProps.lean).
-/

namespace Verif.Kin
open Verif.Geometry Matrix Build

theorem fillDict_map {α : Type} (f : String → α) : ∀ (names : List String) (d : Dict String α),
    ∃ d', fillDict names (names.map f) d = .ok d' ∧
      ∀ l, d'.get? l = if l ∈ names then some (f l) else d.get? l
  | [], d => ⟨d, rfl, fun l => by simp⟩
  | n :: ns, d => by
    obtain ⟨d', h1, h2⟩ := fillDict_map f ns (d.set n (f n))
    refine ⟨d', h1, fun l => ?_⟩
    rw [h2 l, Dict.get?_set]
    by_cases hl : l ∈ ns
    · simp [hl]
    · by_cases e : n = l
      · subst e; simp
      · simp [hl, e, Ne.symm e]

/-- What the three `torchkin` functions return for a legal file. -/
theorem torchkin_out {u : Urdf} (hw : u.WF) : ∃ (r : Robot u) (root : String), fromUrdf u = some r ∧
    u.getRoot = some root ∧ (∀ l, l ∈ r.links → l ∈ u.links) ∧
    ∀ (eps : ℝ) (q : List ℝ) (names : List String), q.length = r.dof → (∀ l ∈ names, l ∈ u.links) →
      ∃ (P : String → SE3) (J : Bool → String → LinkJac),
        (∀ l ∈ names, PathPose u eps root (coords r q) l (P l)) ∧
        forwardKinematics r eps names q = some (names.map P) ∧
        ∀ b, (if b then bodyJacobian r eps names q else spatialJacobian r eps names q)
          = some (names.map fun l => (J b l, P l)) := by
  obtain ⟨r, root, d, h1, h2, hg, hroot, hdof, hinv⟩ := fromUrdf_good hw
  refine ⟨r, root, h1, h2, ?_, fun eps q names hq hn => ?_⟩
  · intro l hl
    rw [hg.links_eq] at hl
    rcases List.mem_cons.mp hl with rfl | hl
    · exact hg.root_mem
    · obtain ⟨j, -, rfl⟩ := List.mem_map.mp hl
      exact hw.child_mem j
  obtain ⟨P, hP, hi, hpath⟩ := exists_path hw hg hroot hinv eps (coords r q)
  have hs := spatialJacobian_spec hw hg hroot hi hP hq hn
  refine ⟨P, fun b l => if b then fun c => (P l).inverse.adjoint *ᵥ
      (if c ∈ r.ancJ l then colOf r P c else 0) else fun c => if c ∈ r.ancJ l then colOf r P c else 0,
    fun l hl => hpath l (hn l hl), forwardKinematics_spec hw hg hroot hi hP hq hn, fun b => ?_⟩
  cases b
  · simpa using hs
  · simp only [if_true]
    unfold bodyJacobian
    rw [hs]
    simp [List.map_map, Function.comp_def]

/-- **C109.** For a legal file and known link names the model is built, and `forward_kinematics` on a row
of joint states of the right length returns exactly the selected links, each with the composition of joint
frames and motions along its path; passing an empty dictionary changes nothing of that and fills the
dictionary, for the same links, with the body or spatial Jacobians. -/
theorem robot_model_poses {u : Urdf} (hw : u.WF) {names : List String} (hn : ∀ l ∈ names, l ∈ u.links) :
    ∃ (m : RobotModel u) (root : String), RobotModel.create u (some names) = .ok m ∧
      fromUrdf u = some m.robot ∧ u.getRoot = some root ∧
      ∀ (eps : ℝ) (q : List ℝ), q.length = m.robot.dof →
        ∀ js, js = .tensor q ∨ js = .vector q → ∀ useBody : Bool,
        ∃ (poses : Dict String SE3) (jacs : Dict String LinkJac),
          m.forward eps js none useBody = .ok (poses, none) ∧
          m.forward eps js (some []) useBody = .ok (poses, some jacs) ∧
          (∀ l, ((poses.get? l).isSome ↔ l ∈ names) ∧ ((jacs.get? l).isSome ↔ l ∈ names)) ∧
          (∀ l T, poses.get? l = some T → PathPose u eps root (coords m.robot q) l T) ∧
          ∀ l T c, poses.get? l = some T → jacs.get? l = some c → 0 < eps →
            ∀ (qs : ℝ → List ℝ) (q' : ℕ → ℝ), qs 0 = q → AngleCurve m.robot eps qs q' →
              JacobianOf m.robot root eps qs q' (if useBody then BodyVel else SpatialVel) l (c, T) := by
  obtain ⟨r, root, h1, h2, -, hk⟩ := torchkin_out hw
  have hid : linkIds r names = some (names.map r.lid) := linkIds_spec hn
  refine ⟨⟨r, some names⟩, root, ?_, h1, h2, fun eps q hq js hjs useBody => ?_⟩
  · simp only [RobotModel.create, h1, RobotModel.selected, hid]
  obtain ⟨P, J, hpath, hf, hJ⟩ := hk eps q names hq hn
  obtain ⟨poses, hp1, hp2⟩ := fillDict_map P names []
  obtain ⟨jacs, hj1, hj2⟩ := fillDict_map (J useBody) names []
  have hd : js.lastDim = r.dof := by rcases hjs with rfl | rfl <;> exact hq
  have hr : js.rows = .ok q := by rcases hjs with rfl | rfl <;> rfl
  refine ⟨poses, jacs, ?_, ?_, ?_, ?_, ?_⟩
  · simp [RobotModel.forward, RobotModel.selected, hd, hr, hf, lift, hp1]
  · have e1 : (names.map fun l => (J useBody l, P l)).map Prod.fst = names.map (J useBody) := by
      simp [List.map_map, Function.comp_def]
    have e2 : (names.map fun l => (J useBody l, P l)).map Prod.snd = names.map P := by
      simp [List.map_map, Function.comp_def]
    have e3 : (if (names.map P).isEmpty then lift (forwardKinematics r eps names q)
        else Except.ok (names.map P)) = .ok (names.map P) := by
      split
      · rw [hf]; rfl
      · rfl
    have e4 : ∀ {α : Type} (a : α), lift (some a) = .ok a := fun _ => rfl
    simp only [RobotModel.forward, RobotModel.selected, hd, hr, hJ useBody, e4, e1, e2, e3, hj1, hp1,
      Option.getD_some, List.length_nil, gt_iff_lt, lt_irrefl, if_false, ne_eq, not_true_eq_false]
  · intro l
    rw [hp2 l, hj2 l]
    by_cases hl : l ∈ names <;> simp [hl]
  · intro l T h
    rw [hp2 l] at h
    by_cases hl : l ∈ names
    · rw [if_pos hl] at h
      obtain rfl := Option.some_injective _ h
      exact hpath l hl
    · rw [if_neg hl] at h; simp at h
  · intro l T c hT hc he qs q' hqs hcurve
    obtain ⟨r', root', g1, g2, hv⟩ := fk_jacobians_partial hw
    obtain rfl := Option.some_injective _ (h1.symm.trans g1)
    obtain rfl := Option.some_injective _ (h2.symm.trans g2)
    rw [hp2 l] at hT
    rw [hj2 l] at hc
    by_cases hl : l ∈ names
    · rw [if_pos hl] at hT hc
      obtain rfl := Option.some_injective _ hT
      obtain rfl := Option.some_injective _ hc
      obtain ⟨⟨a, ha1, ha2⟩, ⟨b, hb1, hb2⟩⟩ := hv eps he qs q' hcurve names hn
      rw [hqs] at ha1 hb1
      have := hJ useBody
      cases useBody
      · simp only [Bool.false_eq_true, if_false] at this ⊢
        rw [ha1] at this
        obtain rfl := Option.some_injective _ this
        rw [List.forall₂_map_right_iff, List.forall₂_same] at ha2
        exact ha2 l hl
      · simp only [if_true] at this ⊢
        rw [hb1] at this
        obtain rfl := Option.some_injective _ this
        rw [List.forall₂_map_right_iff, List.forall₂_same] at hb2
        exact hb2 l hl
    · rw [if_neg hl] at hT; simp at hT

/-- A model that meets the hypotheses, with two of the links of `demo`. -/
example : ∃ m : RobotModel demo, RobotModel.create demo (some ["tool", "arm"]) = .ok m ∧
    ∃ p, m.forward (1 / 100) (.vector [1, 2]) none true = .ok (p, none) ∧
      (p.get? "tool").isSome ∧ p.get? "base" = none := by
  obtain ⟨m, root, h1, h2, -, h⟩ := robot_model_poses demo_wf (names := ["tool", "arm"]) (by decide)
  obtain ⟨r, -, g1, -, g2, -⟩ := fk_path demo_wf
  obtain rfl := Option.some_injective _ (g1.symm.trans h2)
  have hd : m.robot.dof = 2 := by rw [g2]; decide
  obtain ⟨p, J, hp, -, hm, -⟩ := h (1 / 100) [1, 2] (by simp [hd]) _ (.inr rfl) true
  refine ⟨m, h1, p, hp, (hm "tool").1.mpr (by decide), ?_⟩
  have := (hm "base").1.not.mpr (by decide)
  simpa using this

/-- **C109.** The calls that raise: an unknown link name, a dictionary that is not empty, the wrong number
of joint states, a tensor with a single dimension, and an input that is neither a tensor nor a vector. -/
theorem robot_model_raises {u : Urdf} :
    (∀ r names l, fromUrdf u = some r → l ∈ names → l ∉ u.links →
      RobotModel.create u (some names) = .error .keyError) ∧
    ∀ (m : RobotModel u) (eps : ℝ) (b : Bool),
      (∀ js d, d ≠ [] → m.forward eps js (some d) b = .error .valueError) ∧
      (∀ js d, js.lastDim ≠ m.robot.dof → m.forward eps js d b = .error .valueError) ∧
      (∀ q d, m.forward eps (.tensor1 q) d b = .error .valueError) ∧
      (∀ q, q.length = m.robot.dof → m.forward eps (.other q) none b = .error .badInput ∧
        m.forward eps (.other q) (some []) b = .error .badInput) := by
  refine ⟨?_, fun m eps b => ⟨?_, ?_, ?_, ?_⟩⟩
  · intro r names l hr hl hu
    have : linkIds r names = none := by
      unfold linkIds
      rw [if_neg]
      intro hc
      exact hu (by simpa using List.all_eq_true.mp hc l hl)
    simp [RobotModel.create, hr, RobotModel.selected, this]
  · intro js d hd
    have : 0 < d.length := List.length_pos_iff.mpr hd
    simp [RobotModel.forward, this]
  · intro js d hj
    unfold RobotModel.forward
    split
    · rfl
    · rfl
  · intro q d
    unfold RobotModel.forward
    split
    · rfl
    · split
      · rfl
      · rfl
  · intro q hq
    simp [RobotModel.forward, JointStates.lastDim, hq, JointStates.rows]

example : ∃ m : RobotModel demo, RobotModel.create demo (some ["arm"]) = .ok m ∧
    RobotModel.create demo (some ["arm", "hand"]) = .error .keyError := by
  obtain ⟨m, root, h1, h2, -⟩ := robot_model_poses demo_wf (names := ["arm"]) (by decide)
  exact ⟨m, h1, robot_model_raises.1 m.robot _ "hand" h2 (by simp) (by decide)⟩

/-- **C109.** With the default `link_names` the model is built but no joint states are accepted. -/
theorem robot_model_default_links_raises {u : Urdf} (hw : u.WF) :
    ∃ m, RobotModel.create u none = .ok m ∧ ∀ (eps : ℝ) (q : List ℝ), q.length = m.robot.dof →
      ∀ js, js = .tensor q ∨ js = .vector q → ∀ b,
        m.forward eps js none b = .error .typeError ∧
        m.forward eps js (some []) b = .error .typeError := by
  obtain ⟨r, root, h1, h2, hl, hk⟩ := torchkin_out hw
  refine ⟨⟨r, none⟩, ?_, fun eps q hq js hjs b => ?_⟩
  · simp only [RobotModel.create, h1, RobotModel.selected, linkIds_spec hl]
  obtain ⟨P, J, hpath, hf, hJ⟩ := hk eps q r.links hq hl
  have hd : js.lastDim = r.dof := by rcases hjs with rfl | rfl <;> exact hq
  have hr : js.rows = .ok q := by rcases hjs with rfl | rfl <;> rfl
  constructor
  · simp [RobotModel.forward, RobotModel.selected, hd, hr, hf, lift]
  · simp [RobotModel.forward, RobotModel.selected, hd, hr, hJ b, lift]

example : ∃ m, RobotModel.create demo none = .ok m :=
  let ⟨m, h, _⟩ := robot_model_default_links_raises demo_wf
  ⟨m, h⟩

/-- **C109.** `IdentityModel` returns the pose it is given under the name `state`, exactly for vectors
with two degrees of freedom; a tensor is refused. -/
theorem identity_model (p : PoseInput) (d : Dict String (List ℝ)) :
    identityForward p = .ok d ↔ ∃ v, p = .vector v ∧ v.length = 2 ∧ d = [("state", v)] := by
  cases p with
  | vector v =>
    simp only [identityForward]
    split
    · rename_i h
      constructor
      · intro e; exact ⟨v, rfl, h, by cases e; rfl⟩
      · rintro ⟨w, hw, -, rfl⟩; cases hw; rfl
    · rename_i h
      constructor
      · intro e; cases e
      · rintro ⟨w, hw, h', -⟩; cases hw; exact absurd h' h
  | tensor v => simp [identityForward]
  | group v => simp [identityForward]

example : identityForward (.vector [1, 2]) = .ok [("state", [1, 2])] :=
  (identity_model _ _).mpr ⟨_, rfl, rfl, rfl⟩

end Verif.Kin
