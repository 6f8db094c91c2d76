import Verif.Kin.RobotModelProps
import Verif.Geometry.SpatialJac
import Verif.Kin.Pinv
import Mathlib.Analysis.Calculus.DerivativeTest

/-!
# The inverse kinematics step (C110)

The specification is `IsPinv`, `SpatialVel`/`BodyVel` and `PathPose`; the error is the logarithm of the
relative pose.
-/

namespace Verif.Geometry
open Matrix
namespace SE3

/-- A logarithm is fixed by the Jacobian of the logarithm. -/
theorem jlog_log_far {eps deps : ℝ} (he : 0 < eps) {g : SE3} (hg : Valid g)
    (h1 : eps ≤ SO3.theta g.R) (hd1 : deps ≤ SO3.theta g.R)
    (hn : norm3 (SO3.log eps 0 g.R) = SO3.theta g.R) :
    jlog eps deps 0 g *ᵥ log eps 0 g = log eps 0 g := by
  have hC := logCoeffs (deps := deps) he hg h1 hd1
  rw [← hn, SO3.norm3_sq] at hC
  have hT : dot3 (SO3.log eps 0 g.R) (SO3.log eps 0 g.R) ≠ 0 := by
    rw [← SO3.norm3_sq, hn]; exact pow_ne_zero 2 (by linarith)
  have hang : ang (log eps 0 g) = SO3.log eps 0 g.R := by simp only [log, ang_join]
  have hd : 2 * SO3.logB deps g.R + logC deps g.R * dot3 (SO3.log eps 0 g.R) (SO3.log eps 0 g.R)
      + logD deps g.R = 0 := by
    have h0 : SO3.theta g.R ≠ 0 := by linarith
    have hc := SO3.Valid.cosine_ne_one hg (lt_of_lt_of_le he h1)
    have hc' : 2 * SO3.cosine g.R - 2 ≠ 0 := fun h => hc (by linarith)
    have hnl : ¬ SO3.theta g.R < deps := not_lt.mpr hd1
    rw [← SO3.norm3_sq, hn]
    simp only [SO3.logB, logC, logD, if_neg hnl]
    field_simp
    ring
  set w := SO3.log eps 0 g.R with hw
  have hab := hC.ab
  have key : ∀ x : V3, SO3.jlogOf (SO3.logA deps g.R) (SO3.logB deps g.R) w *ᵥ x
      = expT (SO3.logA deps g.R) (1 / 2) (SO3.logB deps g.R) x w := fun x => jlogOf_mulVec' _ _ _ _
  refine ext6 ?_ ?_
  · conv_lhs => rw [jlog, block_mulVec, lin_join]
    rw [hang, key, jlogT_mulVec]
    have hA : SO3.logA deps g.R = 1 - SO3.logB deps g.R * dot3 w w := by linarith
    have hD : logD deps g.R = -(2 * SO3.logB deps g.R) - logC deps g.R * dot3 w w := by linarith
    rw [hA, hD]
    refine ext3 ?_ ?_ ?_ <;>
      simp only [Pi.add_apply, Pi.smul_apply, smul_eq_mul, expT_x, expT_y, expT_z, cross_x, cross_y,
        cross_z, dot3] <;> ring
  · conv_lhs => rw [jlog, block_mulVec, ang_join, Matrix.zero_mulVec, zero_add]
    rw [hang, key]
    have hA : SO3.logA deps g.R = 1 - SO3.logB deps g.R * dot3 w w := by linarith
    rw [hA]
    refine ext3 ?_ ?_ ?_ <;>
      simp only [expT_x, expT_y, expT_z, dot3] <;> ring

/-- The adjoint and the Jacobian of the logarithm fix the logarithm. -/
theorem log_fixed {eps deps epi : ℝ} (he : 0 < eps) (hd : 0 < deps) (hpi0 : 0 ≤ epi) (hpi : epi < 2)
    {g : SE3} (hg : Valid g)
    (h : (eps < SO3.theta g.R ∧ deps ≤ SO3.theta g.R ∧ SO3.BranchOk epi g.R) ∨ g.R = 1) :
    adjoint (inverse g) *ᵥ log eps epi g = log eps epi g ∧
      jlog eps deps epi g *ᵥ log eps epi g = log eps epi g := by
  rcases h with ⟨h1, h2, h3⟩ | h
  · have hpos := h3.pos hg hpi0
    rw [log_branch he hg h1.le h3 hpi0, jlog_branch he hg h1.le h3 hpi0]
    have hn := SO3.norm_log_far he le_rfl hg h1.le hpos
    have hr := SO3.exp_log_far he le_rfl hg h1.le hpos
    have hx := exp_log_of he hg h1.le hn hr
    refine ⟨?_, jlog_log_far he hg h1.le h2 hn⟩
    have h4 := adjoint_exp_self he (-log eps 0 g)
    rw [exp_neg eps he, hx, Matrix.mulVec_neg] at h4
    exact neg_injective h4
  · have e : g = ⟨1, g.t⟩ := by ext1 <;> simp [h]
    rw [e, log_one_rot he hpi]
    obtain ⟨-, t1, -, -, -⟩ := log_of_one (eps := eps) hpi
    have hl : lin (join g.t 0) = g.t := lin_join _ _
    have ha : ang (join g.t 0) = 0 := ang_join _ _
    constructor
    · refine ext6 ?_ ?_
      · rw [adjoint, block_mulVec, lin_join, hl, ha]
        simp [inverse]
      · rw [adjoint, block_mulVec, ang_join, hl, ha]
        simp
    · refine ext6 ?_ ?_
      · rw [jlog, block_mulVec, lin_join, log_one_rot he hpi, hl, ha]
        rw [jlogOf_mulVec']
        simp only [SO3.logA, t1, if_pos hd]
        refine ext3 ?_ ?_ ?_ <;> simp [expT_x, expT_y, expT_z, dot3]
      · rw [jlog, block_mulVec, ang_join, hl, ha]
        simp

end SE3
end Verif.Geometry

namespace Verif.Kin
open Verif.Geometry Matrix Build

theorem PathPose.valid {u : Urdf} {eps : ℝ} (he : 0 < eps) {root : String} {q : u.J → ℝ} {l : String}
    {T : SE3} (h : PathPose u eps root q l T) : SE3.Valid T := by
  induction h with
  | root => exact ⟨by simp, by simp⟩
  | step j _ ih =>
    have h1 : SE3.Valid (jointFrame (u.jnt j)) := by
      have := getOrigin_valid (u.jnt j).origin
      rw [getOrigin_eq] at this
      exact this
    exact SO3.Valid.mul ih (SO3.Valid.mul h1 (motion_valid he _ _))

theorem moveBy_getD {n : ℕ} (q : List ℝ) (s : ℝ) (δ : Fin n → ℝ) (c : ℕ) :
    (moveBy q s δ).getD c 0 = if h : c < n then q.getD c 0 + s * δ ⟨c, h⟩ else 0 := by
  by_cases h : c < n
  · rw [dif_pos h, List.getD_eq_getElem?_getD, List.getElem?_eq_getElem (by simpa [moveBy] using h)]
    simp [moveBy]
  · rw [dif_neg h, List.getD_eq_getElem?_getD, List.getElem?_eq_none (by simpa [moveBy] using h)]
    rfl

theorem moveBy_zero {n : ℕ} {q : List ℝ} (δ : Fin n → ℝ) (h : q.length = n) : moveBy q 0 δ = q := by
  refine List.ext_getElem (by simp [moveBy, h]) fun i h1 h2 => ?_
  simp [moveBy, List.getD_eq_getElem?_getD, List.getElem?_eq_getElem h2]

/-- A vector that starts to move against itself becomes shorter. -/
theorem vnorm_decreases {n : ℕ} {f : ℝ → Fin n → ℝ} {e : Fin n → ℝ} (h0 : f 0 = e) (hne : e ≠ 0)
    (h : VecDeriv f (-e)) : ∃ s0 > 0, ∀ s, 0 < s → s < s0 → vnorm (f s) < vnorm e := by
  have hd : HasDerivAt (fun s => ∑ i, f s i ^ 2) (∑ i, 2 * e i * (-e i)) 0 := by
    refine HasDerivAt.fun_sum fun i _ => ?_
    refine ((h i).fun_pow 2).congr_deriv ?_
    rw [h0]; simp
  obtain ⟨i, hi⟩ := Function.ne_iff.mp hne
  have hpos : 0 < ∑ i, e i ^ 2 :=
    Finset.sum_pos' (fun i _ => sq_nonneg _) ⟨i, Finset.mem_univ _, by
      have : e i ≠ 0 := hi
      positivity⟩
  have hneg : (∑ i, 2 * e i * (-e i)) < 0 := by
    have : (∑ i, 2 * e i * (-e i)) = -(2 * ∑ i, e i ^ 2) := by
      rw [Finset.mul_sum, ← Finset.sum_neg_distrib]
      exact Finset.sum_congr rfl fun i _ => by ring
    rw [this]; linarith
  have hev := (hasDerivAt_iff_tendsto_slope_zero.1 hd).eventually (gt_mem_nhds hneg)
  rw [eventually_nhdsWithin_iff, Metric.eventually_nhds_iff] at hev
  obtain ⟨s0, hs0, hs⟩ := hev
  refine ⟨s0, hs0, fun s h1 h2 => ?_⟩
  have := hs (y := s) (by simpa [abs_of_pos h1] using h2) (by simpa using h1.ne')
  rw [zero_add, smul_eq_mul] at this
  have h3 : (∑ i, f s i ^ 2) < ∑ i, f 0 i ^ 2 := by
    have hsi : 0 < s⁻¹ := inv_pos.mpr h1
    by_contra hc
    have := mul_nonneg hsi.le (sub_nonneg.mpr (not_lt.mp hc))
    linarith
  rw [h0] at h3
  exact Real.sqrt_lt_sqrt (Finset.sum_nonneg fun i _ => sq_nonneg _) h3

/-- The relative pose whose logarithm is the error. -/
noncomputable def relPose (useBody : Bool) (pose target : SE3) : SE3 :=
  if useBody then pose.inverse.compose target else target.compose pose.inverse

/-- Where the logarithm is differentiable: beyond the small-angle threshold and short of half a turn, or
without rotation. -/
def LogOk (leps epi : ℝ) (g : SE3) : Prop :=
  (leps < SO3.theta g.R ∧ SO3.BranchOk epi g.R) ∨ g.R = 1

/-- The velocity of the error when a link moves with the velocity of the error. -/
theorem error_deriv {leps epi : ℝ} (hl : 0 < leps) (hpi0 : 0 ≤ epi) (hpi : epi < 2) {X : ℝ → SE3}
    (hX : ∀ s, SE3.Valid (X s)) {T : SE3} (hT : SE3.Valid T) {b : Bool}
    (hok : LogOk leps epi (relPose b (X 0) T))
    (hv : (if b then BodyVel else SpatialVel) X (ikError leps epi b (X 0) T)) :
    VecDeriv (fun s => ikError leps epi b (X s) T) (-ikError leps epi b (X 0) T) := by
  have L := SE3.lawful (eps := leps) hl leps epi
  set g := relPose b (X 0) T with hg
  set e := ikError leps epi b (X 0) T with he
  have hlog : e = SE3.log leps epi g := rfl
  have hgv : SE3.Valid g := by
    rw [hg, relPose]
    split
    · exact L.compose_valid _ _ (L.inverse_valid _ (hX 0)) hT
    · exact L.compose_valid _ _ hT (L.inverse_valid _ (hX 0))
  have hok' : (leps < SO3.theta g.R ∧ leps ≤ SO3.theta g.R ∧ SO3.BranchOk epi g.R) ∨ g.R = 1 := by
    rcases hok with h | h
    · exact .inl ⟨h.1, h.1.le, h.2⟩
    · exact .inr h
  obtain ⟨hf1, hf2⟩ := SE3.log_fixed hl hl hpi0 hpi hgv hok'
  have hjac := se3_log_jac_partial hl hl hpi0 hpi hgv hok'
  have htan : SE3.emb.Tangent (fun s => relPose b (X s) T) (-e) := by
    cases b
    · have hv : SpatialVel X e := by simpa using hv
      have h1 : SE3.emb.Tangent X ((X 0).inverse.adjoint *ᵥ e) := ⟨hX, body_of_spatial (hX 0) hv⟩
      have h2 := L.inverse_jac (hX 0) X _ rfl h1
      have hvi : SE3.emb.valid T := hT
      have h3 := L.compose_jac_right (a := T) (b := (X 0).inverse) hvi
        (fun s => (X s).inverse) _ rfl h2
      have e3 : ((SE3.ops leps leps epi).composeJac T (X 0).inverse).2 *ᵥ
          ((SE3.ops leps leps epi).inverseJac (X 0) *ᵥ ((X 0).inverse.adjoint *ᵥ e)) = -e := by
        have h4 := mul_eq_one_comm.mp (se3_adjoint (X 0) (X 0) e (hX 0) (hX 0)).2.2.1
        simp only [Ops.composeJac, Ops.inverseJac, Matrix.one_mulVec]
        change (-(X 0).adjoint) *ᵥ _ = _
        rw [Matrix.neg_mulVec, Matrix.mulVec_mulVec, h4, Matrix.one_mulVec]
      rw [e3] at h3
      exact h3
    · have hv : BodyVel X e := by simpa using hv
      have h1 : SE3.emb.Tangent X e := ⟨hX, hv⟩
      have hb : SE3.emb.valid T := hT
      have h2 := L.between_jac_left' (hX 0) hb X e rfl h1
      have e2 : (-(SE3.ops leps leps epi).adjoint ((SE3.ops leps leps epi).inverse
          ((SE3.ops leps leps epi).between (X 0) T))) *ᵥ e = -e := by
        rw [Matrix.neg_mulVec]
        congr 1
      rw [e2] at h2
      exact h2
  have := hjac _ _ rfl htan
  rw [Matrix.mulVec_neg, hlog, hf2] at this
  exact this

/-- **C110.** With `pinv` the Moore–Penrose inverse, from joint states that the Jacobian is exact for and a
target pose in reach of the Jacobian, the step of the example starts to reduce the error at unit rate in
every component: every small enough fraction of it makes the error shorter. -/
theorem ik_step_descends {u : Urdf} (hw : u.WF) : ∃ (r : Robot u) (root : String),
    fromUrdf u = some r ∧ u.getRoot = some root ∧
    ∀ (eps leps epi : ℝ), 0 < eps → 0 < leps → 0 ≤ epi → epi < 2 →
    ∀ (names : List String) (l : String), (∀ n ∈ names, n ∈ u.links) → names.getLast? = some l →
    ∀ q : List ℝ, q.length = r.dof →
      (∀ j : u.J, (u.jnt j).type = "fixed" ∨ (u.jnt j).type = "prismatic" ∨ coords r q j = 0 ∨
        eps < norm3 (coords r q j • (u.jnt j).axis.getD 0)) →
    ∀ (b : Bool) (pose target : SE3), PathPose u eps root (coords r q) l pose →
      (target.Rᵀ * target.R = 1 ∧ target.R.det = 1) → LogOk leps epi (relPose b pose target) →
    ∀ pinv, (∀ A, IsPinv A (pinv A)) →
    ∃ (cols : LinkJac) (δ : Fin r.dof → ℝ),
      (if b then bodyJacobian r eps names q else spatialJacobian r eps names q).bind List.getLast?
        = some (cols, pose) ∧
      ikStep r eps leps epi names pinv b q target = some (δ, ikError leps epi b pose target) ∧
      ((∃ y, jacMatrix r.dof cols *ᵥ y = ikError leps epi b pose target) →
        (∀ X : ℝ → SE3, (∀ s, PathPose u eps root (coords r (moveBy q s δ)) l (X s)) →
          VecDeriv (fun s => ikError leps epi b (X s) target) (-ikError leps epi b pose target)) ∧
        (ikError leps epi b pose target ≠ 0 → ∃ s0 > 0, ∀ s, 0 < s → s < s0 →
          ∀ pose', PathPose u eps root (coords r (moveBy q s δ)) l pose' →
            vnorm (ikError leps epi b pose' target) < vnorm (ikError leps epi b pose target))) := by
  obtain ⟨r, root, h1, h2, -, hk⟩ := torchkin_out hw
  obtain ⟨r', root', g1, g2, hx⟩ := fk_jacobians_exact hw
  obtain rfl := Option.some_injective _ (h1.symm.trans g1)
  obtain rfl := Option.some_injective _ (h2.symm.trans g2)
  refine ⟨r, root, h1, h2, fun eps leps epi he hl hpi0 hpi names l hn hlast q hq hz b pose target hp hT
    hok pinv hpinv => ?_⟩
  obtain ⟨P, J, hpath, hf, hJ⟩ := hk eps q names hq hn
  have hlm : l ∈ names := List.mem_of_getLast? hlast
  have hPl : P l = pose := path_pose_unique hw h2 (hpath l hlm) hp
  have hgl : (names.map fun l => (J b l, P l)).getLast? = some (J b l, pose) := by
    rw [List.getLast?_map, hlast, Option.map_some, hPl]
  set e := ikError leps epi b pose target with he'
  set δ := pinv (jacMatrix r.dof (J b l)) *ᵥ e with hδ
  refine ⟨J b l, δ, by rw [hJ b]; exact hgl, ?_, fun hy => ?_⟩
  · unfold ikStep
    rw [hJ b]
    simp only [hgl]
    rfl
  have hJδ : jacMatrix r.dof (J b l) *ᵥ δ = e := by
    obtain ⟨y, hy⟩ := hy
    rw [hδ, ← hy, (hpinv _).solves]
  set q' : ℕ → ℝ := fun c => if h : c < r.dof then δ ⟨c, h⟩ else 0 with hq'
  have hcurve : AngleCurve r eps (fun s => moveBy q s δ) q' := by
    refine ⟨fun s => by simp [moveBy], fun c => ?_, fun j hjf hjp => ?_⟩
    · simp only [moveBy_getD, hq']
      by_cases h : c < r.dof
      · simp only [dif_pos h]
        simpa using ((hasDerivAt_id (0 : ℝ)).mul_const (δ ⟨c, h⟩)).const_add (q.getD c 0)
      · simp only [dif_neg h]
        exact hasDerivAt_const _ _
    · simp only [moveBy_zero δ hq]
      rcases hz j with h | h | h | h
      · exact absurd h hjf
      · exact absurd h hjp
      · rw [h, zero_smul, SO3.norm3_eq_zero.mpr rfl]; exact he.ne
      · exact h.ne'
  have hsum : ∑ c ∈ Finset.range r.dof, q' c • J b l c = e := by
    rw [← hJδ]
    ext i
    rw [Finset.sum_apply, Finset.sum_range]
    simp only [Matrix.mulVec, dotProduct, jacMatrix, Pi.smul_apply, smul_eq_mul]
    exact Finset.sum_congr rfl fun c _ => by simp [hq', mul_comm]
  have hvel : ∀ X : ℝ → SE3, (∀ s, PathPose u eps root (coords r (moveBy q s δ)) l (X s)) →
      (if b then BodyVel else SpatialVel) X e := by
    intro X hX
    obtain ⟨⟨a, ha1, ha2⟩, ⟨a', hb1, hb2⟩⟩ := hx eps he _ q' hcurve (by
      intro j; simpa only [moveBy_zero δ hq] using hz j) names hn
    simp only [moveBy_zero δ hq] at ha1 hb1
    have := hJ b
    cases b
    · simp only [Bool.false_eq_true, if_false] at this ⊢
      rw [ha1] at this
      obtain rfl := Option.some_injective _ this
      rw [List.forall₂_map_right_iff, List.forall₂_same] at ha2
      have h := ha2 l hlm X hX
      rwa [hsum] at h
    · simp only [if_true] at this ⊢
      rw [hb1] at this
      obtain rfl := Option.some_injective _ this
      rw [List.forall₂_map_right_iff, List.forall₂_same] at hb2
      have h := hb2 l hlm X hX
      rwa [hsum] at h
  have hder : ∀ X : ℝ → SE3, (∀ s, PathPose u eps root (coords r (moveBy q s δ)) l (X s)) →
      X 0 = pose ∧ VecDeriv (fun s => ikError leps epi b (X s) target) (-e) := by
    intro X hX
    have h0 : X 0 = pose := by
      have := hX 0
      rw [moveBy_zero δ hq] at this
      exact path_pose_unique hw h2 this hp
    refine ⟨h0, ?_⟩
    have := error_deriv (leps := leps) (epi := epi) (b := b) hl hpi0 hpi (fun s => (hX s).valid he) hT
      (by rw [h0]; exact hok) (by rw [h0]; exact hvel X hX)
    rwa [h0] at this
  refine ⟨fun X hX => (hder X hX).2, fun hne => ?_⟩
  have hex : ∀ s, ∃ T, PathPose u eps root (coords r (moveBy q s δ)) l T := by
    intro s
    obtain ⟨P', J', hp', -⟩ := hk eps (moveBy q s δ) names (by simp [moveBy]) hn
    exact ⟨_, hp' l hlm⟩
  choose X hX using hex
  obtain ⟨h0, hd⟩ := hder X hX
  obtain ⟨s0, hs0, hs⟩ := vnorm_decreases (f := fun s => ikError leps epi b (X s) target)
    (by simp only [h0]; rfl) hne hd
  refine ⟨s0, hs0, fun s h3 h4 pose' hpose' => ?_⟩
  rw [path_pose_unique hw h2 hpose' (hX s)]
  exact hs s h3 h4

/-- For every matrix there is a Moore–Penrose inverse. -/
theorem exists_pinv (m n : ℕ) : ∃ pinv : Matrix (Fin m) (Fin n) ℝ → Matrix (Fin n) (Fin m) ℝ,
    ∀ A, IsPinv A (pinv A) :=
  ⟨fun A => (IsPinv.exists A).choose, fun A => (IsPinv.exists A).choose_spec⟩

/-- A case that meets the hypotheses: `demo` at angle 1 and displacement 1, with the target one unit
further along the slide. -/
example : ∃ (r : Robot demo) (root : String) (pose target : SE3) (q : List ℝ),
    fromUrdf demo = some r ∧ q.length = r.dof ∧ PathPose demo (1 / 100) root (coords r q) "tool" pose ∧
    (∀ j : demo.J, (demo.jnt j).type = "fixed" ∨ (demo.jnt j).type = "prismatic" ∨ coords r q j = 0 ∨
      1 / 100 < norm3 (coords r q j • (demo.jnt j).axis.getD 0)) ∧
    (target.Rᵀ * target.R = 1 ∧ target.R.det = 1) ∧
    LogOk (1 / 100) (1 / 100) (relPose true pose target) ∧
    ikError (1 / 100) (1 / 100) true pose target ≠ 0 ∧
    ∃ cols, (bodyJacobian r (1 / 100) ["tool"] q).bind List.getLast? = some (cols, pose) ∧
      ∃ y, jacMatrix r.dof cols *ᵥ y = ikError (1 / 100) (1 / 100) true pose target := by
  obtain ⟨r, root, h1, hr, hc⟩ := jac_core demo_wf
  obtain ⟨r', -, g1, -, h2, h3, h4, -⟩ := fk_path demo_wf
  obtain rfl := Option.some_injective _ (h1.symm.trans g1)
  have hd : r.dof = 2 := by rw [h2]; decide
  have hlt : r.jid (2 : Fin 3) < 2 := lt_of_lt_of_eq ((h4 _).mpr (by decide)) hd
  have hq : coords r [1, 1] (2 : Fin 3) = 1 := by
    unfold coords
    rcases (by omega : r.jid (2 : Fin 3) = 0 ∨ r.jid (2 : Fin 3) = 1) with h | h <;>
      · erw [h]; norm_num
  have hn : norm3 (coords r [1, 1] (2 : Fin 3) • (demo.jnt (2 : Fin 3)).axis.getD 0) = 1 := by
    rw [hq]; simp [demo, Urdf.jnt, norm3, dot3]
  have hcurve : AngleCurve r (1 / 100) (fun _ => [1, 1]) 0 := by
    refine ⟨fun t => by simp [hd], fun c => hasDerivAt_const _ _, fun j hf hp => ?_⟩
    fin_cases j
    · exact absurd rfl hp
    · exact absurd rfl hf
    · refine ne_of_gt ?_
      refine lt_of_lt_of_eq ?_ hn.symm
      norm_num
  obtain ⟨P, J, hpath, hval, -, hcol, -, hjac⟩ := hc (1 / 100) (by norm_num) _ _ hcurve
  have hl : "tool" ∈ demo.links := by decide
  set pose := P 0 "tool" with hpose
  have hv : SE3.Valid pose := hval _ hl
  let t : V3 := ![0, 1, 0]
  have hrel : relPose true pose (pose.compose ⟨1, t⟩) = ⟨1, t⟩ := by
    have L := SE3.lawful (eps := 1) one_pos 1 1
    have hi : pose.inverse.compose pose = ⟨1, 0⟩ := by
      refine L.toMatrix_inj _ _ ?_
      have hone : SE3.emb.toMatrix ⟨1, 0⟩ = 1 := by
        rw [← one_eq]
        have := L.exp_zero
        change SE3.toMatrix SE3.one = 1
        rw [SE3.toMatrix, SE3.one, vec3_zero]
        ext i j
        fin_cases i <;> fin_cases j <;> simp [SE3.hom]
      rw [hone]
      exact (L.toMatrix_compose _ _).trans (L.toMatrix_inverse pose hv)
    rw [relPose, if_pos rfl, ← compose_assoc, hi, ← one_eq, one_compose]
  have herr : ikError (1 / 100) (1 / 100) true pose (pose.compose ⟨1, t⟩) = SE3.join t 0 := by
    have : ikError (1 / 100) (1 / 100) true pose (pose.compose ⟨1, t⟩)
        = SE3.log (1 / 100) (1 / 100) (relPose true pose (pose.compose ⟨1, t⟩)) := rfl
    rw [this, hrel, SE3.log_one_rot (by norm_num) (by norm_num)]
  have h1v : SO3.Valid (1 : M3) := ⟨by simp, by simp⟩
  refine ⟨r, root, pose, pose.compose ⟨1, t⟩, [1, 1], h1, by simp [hd], hpath 0 _ hl, ?_, ?_, ?_, ?_, ?_⟩
  · intro j
    fin_cases j
    · exact Or.inr (Or.inl rfl)
    · exact Or.inl rfl
    · refine Or.inr (Or.inr (Or.inr ?_))
      refine lt_of_lt_of_eq ?_ hn.symm
      norm_num
  · exact SO3.Valid.mul hv h1v
  · rw [hrel]; exact .inr rfl
  · rw [herr]
    intro h
    have := congrFun h 1
    simp [SE3.join, t] at this
  · have hs := (hjac ["tool"] (by simpa using hl)).1
    refine ⟨fun c => (pose.inverse).adjoint *ᵥ J "tool" c, by
      unfold bodyJacobian; rw [hs]; rfl, ?_⟩
    rw [herr]
    have hlt0 : r.jid (0 : Fin 3) < r.dof := (h4 _).mpr (by decide)
    refine ⟨Pi.single ⟨r.jid (0 : Fin 3), hlt0⟩ 1, ?_⟩
    rw [Matrix.mulVec_single_one]
    have hk := hcol (0 : Fin 3) (.prismatic t) (by decide) (by rfl)
    have hk' : J "tool" (r.jid (0 : Fin 3)) = pose.adjoint *ᵥ Kind.axis (.prismatic t) := hk
    have ha := (se3_adjoint pose pose 0 hv hv).2.2.1
    have e : (pose.inverse).adjoint *ᵥ J "tool" (r.jid (0 : Fin 3)) = SE3.join t 0 := by
      rw [hk', Matrix.mulVec_mulVec, ha, Matrix.one_mulVec]
      rfl
    exact e

/-- **C110.** The step solves the linearised equation in the least-squares sense, with the smallest
joint motion among those that do. -/
theorem ik_step_least_squares {m n : ℕ} {pinv : Matrix (Fin m) (Fin n) ℝ → Matrix (Fin n) (Fin m) ℝ}
    (hp : ∀ A, IsPinv A (pinv A)) (A : Matrix (Fin m) (Fin n) ℝ) (e : Fin m → ℝ) (y : Fin n → ℝ) :
    vnorm (A *ᵥ (pinv A *ᵥ e) - e) ≤ vnorm (A *ᵥ y - e) ∧
      (vnorm (A *ᵥ y - e) = vnorm (A *ᵥ (pinv A *ᵥ e) - e) → vnorm (pinv A *ᵥ e) ≤ vnorm y) := by
  have hsq : ∀ {k : ℕ} (v : Fin k → ℝ), ∑ i, v i ^ 2 = v ⬝ᵥ v := fun v =>
    Finset.sum_congr rfl fun i _ => by ring
  have hnn : ∀ {k : ℕ} (v : Fin k → ℝ), 0 ≤ v ⬝ᵥ v := fun v =>
    Finset.sum_nonneg fun i _ => mul_self_nonneg _
  have h := (hp A).least e y
  unfold vnorm
  simp only [hsq]
  refine ⟨Real.sqrt_le_sqrt ?_, fun he => Real.sqrt_le_sqrt ?_⟩
  · rw [h]; linarith [hnn (A *ᵥ (y - pinv A *ᵥ e))]
  · have he' := (Real.sqrt_inj (hnn _) (hnn _)).mp he
    rw [h] at he'
    have hz : (A *ᵥ (y - pinv A *ᵥ e)) ⬝ᵥ (A *ᵥ (y - pinv A *ᵥ e)) = 0 := by linarith
    have hz' : A *ᵥ (y - pinv A *ᵥ e) = 0 := dotProduct_self_eq_zero.mp hz
    refine (hp A).shortest e ?_
    rw [Matrix.mulVec_sub] at hz'
    exact sub_eq_zero.mp hz'

example : ∃ pinv : Matrix (Fin 6) (Fin 2) ℝ → Matrix (Fin 2) (Fin 6) ℝ, ∀ A, IsPinv A (pinv A) :=
  exists_pinv 6 2

/-! ### The loop -/

/-- `k` updates of the whole batch. -/
inductive IkSteps {u : Urdf} (r : Robot u) (eps leps epi : ℝ) (names : List String)
    (pinv : Matrix (Fin 6) (Fin r.dof) ℝ → Matrix (Fin r.dof) (Fin 6) ℝ) (b : Bool) (step : ℝ)
    (targets : List SE3) : ℕ → List (List ℝ) → List (List ℝ) → Prop
  | zero (qs) : IkSteps r eps leps epi names pinv b step targets 0 qs qs
  | succ {k qs ds qs'} :
      List.Forall₂ (fun x d => ikStep r eps leps epi names pinv b x.1 x.2 = some d) (qs.zip targets) ds →
      IkSteps r eps leps epi names pinv b step targets k
        ((qs.zip ds).map fun x => moveBy x.1 step x.2.1) qs' →
      IkSteps r eps leps epi names pinv b step targets (k + 1) qs qs'

theorem mapM_forall₂ {α β : Type} {f : α → Option β} : ∀ {l : List α} {out : List β},
    l.mapM f = some out → List.Forall₂ (fun a b => f a = some b) l out
  | [], out, h => by simp at h; subst h; exact .nil
  | a :: l, out, h => by
    rw [List.mapM_cons] at h
    rcases hf : f a with _ | b
    · simp [hf] at h
    · rcases hl : l.mapM f with _ | bs
      · simp [hf, hl] at h
      · simp [hf, hl] at h
        subst h
        exact .cons hf (mapM_forall₂ hl)

theorem sum_sq_le {n : ℕ} (ds : List (Fin n → ℝ)) : ∀ d ∈ ds,
    ∑ i, d i ^ 2 ≤ (ds.map fun d => ∑ i, d i ^ 2).sum := by
  intro d hd
  exact List.single_le_sum (by
    intro x hx
    obtain ⟨d', -, rfl⟩ := List.mem_map.mp hx
    exact Finset.sum_nonneg fun i _ => sq_nonneg _) _ (List.mem_map.mpr ⟨d, hd, rfl⟩)

/-- **C110.** The loop returns joint states reached by at most `fuel` updates of the batch; when it stops
early every element of the batch is within `tol` of its target. -/
theorem ik_loop {u : Urdf} (r : Robot u) (eps leps epi : ℝ) (names : List String)
    (pinv : Matrix (Fin 6) (Fin r.dof) ℝ → Matrix (Fin r.dof) (Fin 6) ℝ) (b : Bool) (step tol : ℝ)
    (targets : List SE3) (fuel : ℕ) (qs qs' : List (List ℝ))
    (h : ikLoop r eps leps epi names pinv b step tol targets fuel qs = some qs') :
    ∃ k ≤ fuel, IkSteps r eps leps epi names pinv b step targets k qs qs' ∧
      (k < fuel → ∀ x ∈ qs'.zip targets, ∃ δ e, ikStep r eps leps epi names pinv b x.1 x.2 = some (δ, e) ∧
        vnorm e < tol) := by
  induction fuel generalizing qs with
  | zero =>
    simp only [ikLoop, Option.some.injEq] at h
    subst h
    exact ⟨0, le_rfl, .zero _, fun h => absurd h (lt_irrefl _)⟩
  | succ fuel ih =>
    rw [ikLoop] at h
    rcases hm : (qs.zip targets).mapM fun x => ikStep r eps leps epi names pinv b x.1 x.2 with _ | ds
    · rw [hm] at h; simp at h
    · rw [hm] at h
      simp only at h
      have hf := mapM_forall₂ hm
      by_cases ht : Real.sqrt ((ds.map fun d => ∑ i, d.2 i ^ 2).sum) < tol
      · rw [if_pos ht] at h
        obtain rfl := Option.some_injective _ h
        refine ⟨0, Nat.zero_le _, .zero _, fun _ x hx => ?_⟩
        obtain ⟨d, hd, hxd⟩ : ∃ d ∈ ds, ikStep r eps leps epi names pinv b x.1 x.2 = some d := by
          obtain ⟨i, hi, rfl⟩ := List.getElem_of_mem hx
          have hl := hf.length_eq
          exact ⟨ds[i]'(hl ▸ hi), List.getElem_mem _, hf.get hi (hl ▸ hi)⟩
        refine ⟨d.1, d.2, hxd, lt_of_le_of_lt (Real.sqrt_le_sqrt ?_) ht⟩
        have := sum_sq_le (ds.map Prod.snd) d.2 (List.mem_map.mpr ⟨d, hd, rfl⟩)
        simpa [List.map_map, Function.comp_def] using this
      · rw [if_neg ht] at h
        obtain ⟨k, hk, hs, hst⟩ := ih _ h
        exact ⟨k + 1, by omega, .succ hf hs, fun hk' => hst (by omega)⟩

example {u : Urdf} (r : Robot u) (pinv) (q : List ℝ) :
    ikLoop r 1 1 1 ["tool"] pinv true 1 1 [SE3.one] 0 [q] = some [q] := rfl

/-- **C110.** At the target the error and the step are zero, so the loop stops at once for any positive
tolerance. -/
theorem ik_at_target {u : Urdf} (hw : u.WF) : ∃ (r : Robot u) (root : String),
    fromUrdf u = some r ∧ u.getRoot = some root ∧
    ∀ (eps leps epi : ℝ), 0 < eps → 0 < leps → epi < 2 →
    ∀ (names : List String) (l : String), (∀ n ∈ names, n ∈ u.links) → names.getLast? = some l →
    ∀ (q : List ℝ) (target : SE3), q.length = r.dof → PathPose u eps root (coords r q) l target →
    ∀ (b : Bool) (pinv),
      ikStep r eps leps epi names pinv b q target = some (0, 0) ∧
      ∀ (step tol : ℝ) (fuel : ℕ), 0 < tol →
        ikLoop r eps leps epi names pinv b step tol [target] fuel [q] = some [q] := by
  obtain ⟨r, root, h1, h2, -, hk⟩ := torchkin_out hw
  refine ⟨r, root, h1, h2, fun eps leps epi he hl hpi names l hn hlast q target hq hp b pinv => ?_⟩
  obtain ⟨P, J, hpath, hf, hJ⟩ := hk eps q names hq hn
  have hPl : P l = target := path_pose_unique hw h2 (hpath l (List.mem_of_getLast? hlast)) hp
  have hgl : (names.map fun l => (J b l, P l)).getLast? = some (J b l, target) := by
    rw [List.getLast?_map, hlast, Option.map_some, hPl]
  have hv : SE3.Valid target := hp.valid he
  have hrel : relPose b target target = ⟨1, 0⟩ := by
    have hm := SO3.Valid.mul_transpose hv
    have hm' := hv.1
    cases b
    · simp [relPose, SE3.compose, SE3.inverse, hm, Matrix.neg_mulVec, Matrix.mulVec_neg, Matrix.mulVec_mulVec]
    · simp [relPose, SE3.compose, SE3.inverse, hm', Matrix.neg_mulVec]
  have he0 : ikError leps epi b target target = 0 := by
    have : ikError leps epi b target target = SE3.log leps epi (relPose b target target) := rfl
    rw [this, hrel, SE3.log_one_rot hl hpi]
    ext i; fin_cases i <;> simp [SE3.join]
  have hstep : ikStep r eps leps epi names pinv b q target = some (0, 0) := by
    unfold ikStep
    rw [hJ b]
    simp only [hgl, he0, Matrix.mulVec_zero]
  refine ⟨hstep, fun step tol fuel ht => ?_⟩
  cases fuel with
  | zero => rfl
  | succ fuel =>
    simp [ikLoop, hstep, ht]

example : ∃ r : Robot demo, fromUrdf demo = some r ∧ ∃ T, ∀ pinv,
    ikStep r (1 / 100) (1 / 100) (1 / 100) ["tool"] pinv true [1, 2] T = some (0, 0) := by
  obtain ⟨r, root, h1, hroot, h⟩ := ik_at_target demo_wf
  obtain ⟨r', root', g1, -, h2, -, -, hp⟩ := fk_path demo_wf
  obtain ⟨r'', root'', k1, k2, -, hk⟩ := torchkin_out demo_wf
  obtain rfl := Option.some_injective _ (h1.symm.trans g1)
  obtain rfl := Option.some_injective _ (h1.symm.trans k1)
  have hd : r.dof = 2 := by rw [h2]; decide
  obtain ⟨P, J, hpath, -⟩ := hk (1 / 100) [1, 2] ["tool"] (by simp [hd]) (by decide)
  obtain rfl : root = root'' := Option.some_injective _ (hroot.symm.trans k2)
  exact ⟨r, h1, P "tool", fun pinv => (h (1 / 100) (1 / 100) (1 / 100) (by norm_num) (by norm_num)
    (by norm_num) ["tool"] "tool" (by decide) rfl [1, 2] _ (by simp [hd]) (hpath _ (by simp)) true pinv).1⟩

end Verif.Kin
