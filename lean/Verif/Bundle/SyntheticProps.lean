import Verif.Bundle.Synthetic
import Verif.Bundle.FileProps
import Mathlib.Analysis.SpecialFunctions.Sqrt
import Mathlib.Analysis.SpecialFunctions.Log.Deriv
import Mathlib.Analysis.SpecialFunctions.Trigonometric.Bounds

/-!
# Synthetic bundle adjustment problems and histograms: properties (C100, C101)
-/

namespace Verif.Bundle
open Verif.Geometry Verif.Embodied Matrix

/-! ### Specification -/

/-- `R` rotates by the angle `φ` (in degrees) around the unit vector `a` (Rodrigues' formula). -/
def Rotates (R : M3) (a : V3) (φ : ℝ) : Prop :=
  dot3 a a = 1 ∧ ∀ x : V3, R *ᵥ x = Real.cos (φ * (Real.pi / 180)) • x + ((1 - Real.cos (φ * (Real.pi / 180))) * dot3 a x) • a +
    Real.sin (φ * (Real.pi / 180)) • cross3 a x

/-- The place of a camera in the world: the point that it maps to the origin. -/
def center (g : SE3) : V3 := -(g.Rᵀ *ᵥ g.t)

/-- Draws of `torch.rand`. -/
def Unit01 (x : ℝ) : Prop := 0 ≤ x ∧ x < 1

/-- All draws are possible: those of `torch.rand` are in `[0, 1)`, those of `torch.randperm` are permutations. -/
structure Possible (a : Args) (d : Draws) : Prop where
  cam : ∀ i, Unit01 (d.cam i).pose.u ∧ Unit01 (d.cam i).pose.v ∧ Unit01 (d.cam i).pose.w ∧ (∀ k, Unit01 ((d.cam i).pose.pos k)) ∧
    Unit01 (d.cam i).f ∧ Unit01 (d.cam i).k1 ∧ Unit01 (d.cam i).k2
  camNoise : ∀ i, Unit01 (d.camNoise i).u ∧ Unit01 (d.camNoise i).v ∧ Unit01 (d.camNoise i).w ∧
    ∀ k, Unit01 ((d.camNoise i).pos k)
  pt : ∀ i k, Unit01 (d.pt i k)
  ptNoise : ∀ i k, Unit01 (d.ptNoise i k)
  perm : ∀ i, (d.perm i).Perm (List.range a.spanSize.toNat)
  obs : ∀ i k, (∀ c, Unit01 ((d.obs i k).noise c)) ∧ Unit01 (d.obs i k).outlier ∧ ∀ c, Unit01 ((d.obs i k).extra c)

/-! ### Losses -/

/-- **The second result of the losses is the derivative of the first one**, and the losses of 0 are 0. -/
theorem soft_losses {x radius : ℝ} (hr : 0 < radius) (hx : -radius < x) :
    HasDerivAt (fun x => (softCauchy x radius).1) (softCauchy x radius).2 x ∧
    HasDerivAt (fun x => (softHuber x radius).1) (softHuber x radius).2 x ∧
    (softCauchy 0 radius).1 = 0 ∧ (softHuber 0 radius).1 = 0 := by
  have hpos : 0 < (x + radius) / radius := by apply div_pos <;> linarith
  have h1 : HasDerivAt (fun x => (x + radius) / radius) (1 / radius) x :=
    ((hasDerivAt_id x).add_const radius).div_const radius
  refine ⟨?_, ?_, ?_, ?_⟩
  · refine ((h1.log hpos.ne').mul_const radius).congr_deriv ?_
    simp only [softCauchy]
    field_simp
  · refine (((h1.sqrt hpos.ne').sub_const 1).mul_const radius).congr_deriv ?_
    simp only [softHuber]
    have : Real.sqrt ((x + radius) / radius) ≠ 0 := (Real.sqrt_pos.2 hpos).ne'
    field_simp
    norm_num
  · simp [softCauchy, div_self hr.ne']
  · simp [softHuber, div_self hr.ne']

example : HasDerivAt (fun x => (softHuber x 2).1) (softHuber 1 2).2 1 := (soft_losses (x := 1) (radius := 2) (by norm_num) (by norm_num)).2.1

/-! ### Random rotations -/

/-- The points are on the sphere. -/
theorem random_spheres {u v w : ℝ} (hu : Unit01 u) (hv : Unit01 v) :
    dot3 (randomS2 u v) (randomS2 u v) = 1 ∧ ∑ k, randomS3 u v w k ^ 2 = 1 := by
  constructor
  · have h1 : Real.sqrt (1 - (v * 2 - 1) ^ 2) ^ 2 = 1 - (v * 2 - 1) ^ 2 := Real.sq_sqrt (by nlinarith [hv.1, hv.2])
    have h2 := Real.sin_sq_add_cos_sq (u * (2 * Real.pi))
    simp only [dot3, randomS2, Matrix.cons_val_zero, Matrix.cons_val_one, Matrix.cons_val]
    linear_combination (1 - (v * 2 - 1) ^ 2) * h2 +
      (Real.sin (u * (2 * Real.pi)) ^ 2 + Real.cos (u * (2 * Real.pi)) ^ 2) * h1
  · have h1 : Real.sqrt (1 - u) ^ 2 = 1 - u := Real.sq_sqrt (by linarith [hu.2])
    have h2 : Real.sqrt u ^ 2 = u := Real.sq_sqrt hu.1
    have h3 := Real.sin_sq_add_cos_sq (2 * Real.pi * v)
    have h4 := Real.sin_sq_add_cos_sq (2 * Real.pi * w)
    simp only [randomS3, Fin.sum_univ_four, Matrix.cons_val_zero, Matrix.cons_val_one, Matrix.cons_val]
    linear_combination (1 - u) * h3 + u * h4 +
      (Real.sin (2 * Real.pi * v) ^ 2 + Real.cos (2 * Real.pi * v) ^ 2) * h1 +
      (Real.sin (2 * Real.pi * w) ^ 2 + Real.cos (2 * Real.pi * w) ^ 2) * h2

theorem smallQuaternion_unit {D m u v w : ℝ} (hu : Unit01 u) (hv : Unit01 v) :
    smallQuaternion D m u v w 0 ^ 2 + smallQuaternion D m u v w 1 ^ 2 + smallQuaternion D m u v w 2 ^ 2 +
      smallQuaternion D m u v w 3 ^ 2 = 1 := by
  have h1 := (random_spheres (w := 0) hu hv).1
  have h2 := Real.sin_sq_add_cos_sq (smallAngle D m w)
  simp only [dot3] at h1
  simp only [smallQuaternion, Matrix.cons_val_zero, Matrix.cons_val_one, Matrix.cons_val]
  linear_combination h2 + Real.sin (smallAngle D m w) ^ 2 * h1

/-- **The rotation of `random_small_quaternion` is by twice the angle drawn**: by `2 (min + (max - min) w)` degrees around the
axis drawn. -/
theorem small_quaternion_rotates {D m u v w : ℝ} (hu : Unit01 u) (hv : Unit01 v) :
    Rotates (SO3.ofQuaternion (smallQuaternion D m u v w)) (randomS2 u v) (2 * (m + (D - m) * w)) := by
  have h1 := (random_spheres (w := 0) hu hv).1
  refine ⟨h1, fun x => ?_⟩
  rw [SO3.ofQuaternion_of_unit (smallQuaternion_unit hu hv)]
  have ha : 2 * (m + (D - m) * w) * (Real.pi / 180) = 2 * smallAngle D m w := by unfold smallAngle; ring
  rw [ha, Real.cos_two_mul, Real.sin_two_mul]
  set s := Real.sin (smallAngle D m w)
  set c := Real.cos (smallAngle D m w)
  have h2 : s ^ 2 + c ^ 2 = 1 := Real.sin_sq_add_cos_sq _
  set a := randomS2 u v
  simp only [dot3] at h1
  have hq : ∀ k : Fin 4, smallQuaternion D m u v w k = (![c, s * a 0, s * a 1, s * a 2] : Fin 4 → ℝ) k := fun k => rfl
  simp only [hq, Matrix.cons_val_zero, Matrix.cons_val_one, Matrix.cons_val]
  funext i
  fin_cases i <;>
  simp [SO3.quatMatrix, Matrix.mulVec, dotProduct, Fin.sum_univ_three, cross3, dot3]
  · linear_combination (-(x 0) + 2 * a 0 * (a 0 * x 0 + a 1 * x 1 + a 2 * x 2)) * h2 - s ^ 2 * x 0 * h1
  · linear_combination (-(x 1) + 2 * a 1 * (a 0 * x 0 + a 1 * x 1 + a 2 * x 2)) * h2 - s ^ 2 * x 1 * h1
  · linear_combination (-(x 2) + 2 * a 2 * (a 0 * x 0 + a 1 * x 1 + a 2 * x 2)) * h2 - s ^ 2 * x 2 * h1

/-- The rotation of a rotation matrix is unique: the trace gives the angle between 0 and 180 degrees. -/
theorem rotates_trace {R : M3} {a : V3} {φ : ℝ} (h : Rotates R a φ) : R.trace = 1 + 2 * Real.cos (φ * (Real.pi / 180)) := by
  obtain ⟨h1, h2⟩ := h
  have e : ∀ i, R i i = (R *ᵥ Pi.single i 1) i := fun i => by simp
  rw [Matrix.trace, Fin.sum_univ_three]
  simp only [Matrix.diag_apply, e, h2]
  simp only [dot3] at h1
  simp [dot3, cross3]
  linear_combination (1 - Real.cos (φ * (Real.pi / 180))) * h1

/-- The angle is at most twice `max_degrees`. -/
theorem small_quaternion_bound {D u v w : ℝ} (hD : 0 ≤ D) (hu : Unit01 u) (hv : Unit01 v) (hw : Unit01 w) :
    ∃ φ, 0 ≤ φ ∧ φ ≤ 2 * D ∧ Rotates (SO3.ofQuaternion (smallQuaternion D 0 u v w)) (randomS2 u v) φ := by
  refine ⟨_, ?_, ?_, small_quaternion_rotates hu hv⟩
  · have := mul_nonneg hD hw.1; linarith
  · have := mul_le_mul_of_nonneg_left hw.2.le hD; linarith

/-- **A defect.** `random_small_quaternion(max_degrees)` rotates by more than `max_degrees` for some draws, for every
`max_degrees` up to 90: there are draws for which the result rotates by no angle from 0 to `max_degrees`. -/
theorem small_quaternion_exceeds {D : ℝ} (h0 : 0 < D) (h90 : D ≤ 90) : ∃ u v w, Unit01 u ∧ Unit01 v ∧ Unit01 w ∧
    ∀ a φ, 0 ≤ φ → φ ≤ D → ¬ Rotates (SO3.ofQuaternion (smallQuaternion D 0 u v w)) a φ := by
  have hU : Unit01 (3 / 4) := ⟨by norm_num, by norm_num⟩
  refine ⟨3 / 4, 3 / 4, 3 / 4, hU, hU, hU, fun a φ hφ0 hφ h => ?_⟩
  have h1 := rotates_trace h
  have h2 := rotates_trace (small_quaternion_rotates (D := D) (m := 0) (w := 3 / 4) hU hU)
  have hlt : Real.cos (2 * (0 + (D - 0) * (3 / 4)) * (Real.pi / 180)) < Real.cos (φ * (Real.pi / 180)) := by
    refine Real.cos_lt_cos_of_nonneg_of_le_pi ?_ ?_ ?_
    · have := Real.pi_pos; positivity
    · have := Real.pi_pos; nlinarith
    · have := Real.pi_pos
      refine mul_lt_mul_of_pos_right ?_ (by positivity)
      linarith
  linarith

/-! ### Cameras -/

/-- **`Camera.project_point` is the projection of `Reprojection`**: the error of that cost function is the difference of the
projection and the feature. -/
theorem project_reprojection (c : Camera) (p : V3) (feat : Fin 2 → ℝ) :
    reprojError c.pose p feat c.f c.k1 c.k2 = project c p - feat := by
  funext i
  simp only [reprojError, camError, camProj, camFactor, camSqn, project, Pi.sub_apply]

/-- **A perturbed camera has the same intrinsics**; its place in the world moves by at most `pos_random` in each direction of the
new camera frame, and it is turned by at most twice `rot_random`. -/
theorem perturbed_near {r p : ℝ} (hr : 0 ≤ r) (hp : 0 ≤ p) (c : Camera) {d : PoseDraw}
    (hu : Unit01 d.u) (hvv : Unit01 d.v) (hw : Unit01 d.w) (hd : ∀ k, Unit01 (d.pos k)) :
    (perturbed r p d c).f = c.f ∧ (perturbed r p d c).k1 = c.k1 ∧ (perturbed r p d c).k2 = c.k2 ∧
    (∃ Q a φ, (perturbed r p d c).pose.R = Q * c.pose.R ∧ Rotates Q a φ ∧ 0 ≤ φ ∧ φ ≤ 2 * r) ∧
    ∃ δ : V3, center (perturbed r p d c).pose - center c.pose = -((perturbed r p d c).pose.Rᵀ *ᵥ δ) ∧ ∀ k, |δ k| ≤ p := by
  obtain ⟨φ, h1, h2, h3⟩ := small_quaternion_bound hr hu hvv hw
  refine ⟨rfl, rfl, rfl, ⟨_, _, φ, rfl, h3, h1, h2⟩, fun i => (d.pos i * 2 - 1) * p, ?_, fun k => ?_⟩
  · set Q := SO3.ofQuaternion (smallQuaternion r 0 d.u d.v d.w) with hQ
    have hq : Qᵀ * Q = 1 := by
      rw [hQ, SO3.ofQuaternion_of_unit (smallQuaternion_unit hu hvv)]
      exact (SO3.quatMatrix_valid (smallQuaternion_unit hu hvv)).1
    have e1 : (perturbed r p d c).pose.R = Q * c.pose.R := rfl
    have e2 : (perturbed r p d c).pose.t = Q *ᵥ c.pose.t + fun i => (d.pos i * 2 - 1) * p := rfl
    rw [center, center, e1, e2, Matrix.transpose_mul, Matrix.mulVec_add, Matrix.mulVec_mulVec, Matrix.mul_assoc, hq,
      Matrix.mul_one]
    abel
  · have := hd k
    rw [abs_mul, abs_of_nonneg hp]
    have h4 : |d.pos k * 2 - 1| ≤ 1 := abs_le.2 ⟨by linarith [this.1], by linarith [this.2]⟩
    nlinarith

/-! ### `generate_synthetic` -/

theorem spanSize_nonneg {a : Args} (hl : 0 ≤ a.locality) : 0 ≤ a.spanSize := by
  unfold Args.spanSize trunc
  have h : 0 ≤ a.locality * a.numPoints := by positivity
  rw [if_pos h]
  have := Int.floor_nonneg.2 h
  refine le_min ?_ ?_ <;> positivity

/-- **`generate_synthetic` returns exactly if there are at least two cameras** (and the locality is not so negative that there are
fewer than 0 points to choose from). -/
theorem generate_returns (a : Args) (d : Draws) :
    (∃ D, generate a d = .ok D) ↔ 2 ≤ a.numCameras ∧ 0 ≤ a.spanSize := by
  unfold generate
  split
  · rename_i h
    exact iff_of_false (by simp) (by omega)
  · split
    · rename_i h
      exact iff_of_false (by simp) (by omega)
    · exact iff_of_true ⟨_, rfl⟩ (by omega)

theorem generate_eq {a : Args} {d : Draws} {D : Dataset} (h : generate a d = .ok D) :
    2 ≤ a.numCameras ∧ 0 ≤ a.spanSize ∧
    D.cameras = (List.range a.numCameras).map (fun i => .cam (perturbed 0.1 0.2 (d.camNoise i) (gtCamera a d i))) ∧
    D.points = (List.range a.numPoints).map (fun i : ℕ => .pt fun k => gtPoint a d i k + (d.ptNoise i k * 2 - 1) * 0.2) ∧
    D.observations = ((List.range a.numCameras).map (obsOfCamera a d)).flatten ∧
    D.gtCameras = some ((List.range a.numCameras).map fun i => .cam (gtCamera a d i)) ∧
    D.gtPoints = some ((List.range a.numPoints).map fun i => .pt (gtPoint a d i)) := by
  unfold generate at h
  split at h
  · cases h
  · split at h
    · cases h
    · injection h with h
      subst h
      refine ⟨by omega, by omega, ?_, ?_, rfl, ?_, ?_⟩ <;> simp [List.map_map, Function.comp_def]

theorem spanStart_bounds {a : Args} (hc : 2 ≤ a.numCameras) {i : ℕ} (hi : i < a.numCameras) :
    0 ≤ a.spanStart i ∧ a.spanStart i + a.spanSize ≤ a.numPoints := by
  have hle : a.spanSize ≤ a.numPoints := min_le_right _ _
  unfold Args.spanStart
  have hn : (0 : ℤ) < a.numCameras := by omega
  have h0 : 0 ≤ (a.numPoints : ℤ) - a.spanSize := by omega
  refine ⟨Int.ediv_nonneg (mul_nonneg h0 (by omega)) hn.le, ?_⟩
  have : ((a.numPoints : ℤ) - a.spanSize) * i / a.numCameras ≤ (a.numPoints : ℤ) - a.spanSize := by
    refine Int.ediv_le_of_le_mul hn (mul_le_mul_of_nonneg_left (by omega) h0)
  omega

theorem spanStart_mono {a : Args} {i j : ℕ} (h : i ≤ j) : a.spanStart i ≤ a.spanStart j := by
  have hle : a.spanSize ≤ a.numPoints := min_le_right _ _
  unfold Args.spanStart
  rcases Nat.eq_zero_or_pos a.numCameras with h0 | h0
  · simp [h0]
  · refine Int.ediv_le_ediv (by omega) (mul_le_mul_of_nonneg_left (by omega) (by omega))

theorem mem_obsOfCamera {a : Args} {d : Draws} (hd : Possible a d) {i : ℕ} {o : Obs} (ho : o ∈ obsOfCamera a d i) :
    o.cam = i ∧ ∃ m k : ℕ, (m : ℤ) < a.spanSize ∧ o.pt = m + a.spanStart i ∧
      o.feat = feature a d i k (m + a.spanStart i).toNat := by
  obtain ⟨⟨m, k⟩, hq, rfl⟩ := List.mem_map.1 ho
  refine ⟨rfl, m, k, ?_, rfl, rfl⟩
  have h1 : m ∈ (d.perm i).take a.ptsPerCam := by
    have := List.mem_zipIdx hq
    rw [this.2.2]
    exact List.getElem_mem _
  have h2 := (hd.perm i).mem_iff.1 (List.mem_of_mem_take h1)
  rw [List.mem_range] at h2
  omega

/-- **The observations are of existing cameras and points**: camera by camera, every camera observes
`min(average_track_length * num_points // num_cameras, num_points)` different points (a locality of at least 0 leaves enough to
choose from). -/
theorem generate_observations {a : Args} {d : Draws} {D : Dataset} (hl : 0 ≤ a.locality) (hd : Possible a d)
    (h : generate a d = .ok D) :
    (∀ o ∈ D.observations, (∃ i : ℕ, o.cam = i ∧ i < D.cameras.length) ∧ ∃ j : ℕ, o.pt = j ∧ j < D.points.length) ∧
    (∀ i : ℕ, i < D.cameras.length → ((D.observations.filter fun o => o.cam = (i : ℤ)).map Obs.pt).Nodup ∧
      (D.observations.filter fun o => o.cam = (i : ℤ)).length = min (a.trackLength * a.numPoints / a.numCameras) a.numPoints) ∧
    (D.observations.map Obs.cam).Pairwise (· ≤ ·) := by
  obtain ⟨hc, hs, e1, e2, e3, -, -⟩ := generate_eq h
  have l1 : D.cameras.length = a.numCameras := by rw [e1]; simp
  have l2 : D.points.length = a.numPoints := by rw [e2]; simp
  rw [l1, l2, e3]
  have hfilter : ∀ i j : ℕ, (obsOfCamera a d j).filter (fun o => o.cam = (i : ℤ)) = if j = i then obsOfCamera a d j else [] := by
    intro i j
    split
    · rename_i hij
      subst hij
      exact List.filter_eq_self.2 fun o ho => by simp [(mem_obsOfCamera hd ho).1]
    · rename_i hij
      exact List.filter_eq_nil_iff.2 fun o ho => by
        simp only [(mem_obsOfCamera hd ho).1, decide_eq_true_eq]
        omega
  have hfl : ∀ i < a.numCameras, (((List.range a.numCameras).map (obsOfCamera a d)).flatten.filter fun o => o.cam = (i : ℤ)) =
      obsOfCamera a d i := by
    intro i hi
    have key : ∀ n, (((List.range n).map (obsOfCamera a d)).flatten.filter fun o => o.cam = (i : ℤ)) =
        if i < n then obsOfCamera a d i else [] := by
      intro n
      induction n with
      | zero => simp
      | succ n ih =>
        rw [List.range_succ, List.map_append, List.flatten_append, List.filter_append, ih]
        simp only [List.map_cons, List.map_nil, List.flatten_cons, List.flatten_nil, List.append_nil, hfilter]
        rcases lt_trichotomy i n with h1 | h1 | h1
        · rw [if_pos h1, if_neg (by omega), if_pos (by omega), List.append_nil]
        · subst h1
          rw [if_neg (by omega), if_pos rfl, if_pos (by omega), List.nil_append]
        · rw [if_neg (by omega), if_neg (by omega), if_neg (by omega), List.nil_append]
    rw [key, if_pos hi]
  have hpts : ∀ i, (obsOfCamera a d i).map Obs.pt = ((d.perm i).take a.ptsPerCam).map fun m : ℕ => (m : ℤ) + a.spanStart i := by
    intro i
    unfold obsOfCamera
    rw [List.map_map]
    have : (Obs.pt ∘ fun q : ℕ × ℕ => (⟨i, q.1 + a.spanStart i, feature a d i q.2 (q.1 + a.spanStart i).toNat⟩ : Obs)) =
        (fun m : ℕ => (m : ℤ) + a.spanStart i) ∘ Prod.fst := rfl
    rw [this, ← List.map_map, List.zipIdx_map_fst]
  refine ⟨?_, fun i hi => ⟨?_, ?_⟩, ?_⟩
  · intro o ho
    obtain ⟨l, hl', ho⟩ := List.mem_flatten.1 ho
    obtain ⟨i, hi, rfl⟩ := List.mem_map.1 hl'
    rw [List.mem_range] at hi
    obtain ⟨h1, m, k, h2, h3, -⟩ := mem_obsOfCamera hd ho
    obtain ⟨h4, h5⟩ := spanStart_bounds hc hi
    exact ⟨⟨i, h1, hi⟩, (m + a.spanStart i).toNat, by omega, by omega⟩
  · rw [hfl i hi, hpts]
    refine List.Nodup.map (fun x y hxy => by simpa using hxy) ?_
    exact ((hd.perm i).nodup_iff.2 List.nodup_range).sublist (List.take_sublist _ _)
  · rw [hfl i hi, ← List.length_map (f := Obs.pt), hpts, List.length_map, List.length_take, (hd.perm i).length_eq,
      List.length_range]
    have : a.spanSize = min (a.ptsPerCam + trunc (a.locality * a.numPoints)) a.numPoints := rfl
    have ht : 0 ≤ trunc (a.locality * a.numPoints) := by
      unfold trunc
      rw [if_pos (by positivity)]
      exact Int.floor_nonneg.2 (by positivity)
    show min a.ptsPerCam a.spanSize.toNat = min a.ptsPerCam a.numPoints
    omega
  · have key : ∀ n, ((((List.range n).map (obsOfCamera a d)).flatten).map Obs.cam).Pairwise (· ≤ ·) := by
      intro n
      induction n with
      | zero => simp
      | succ n ih =>
        rw [List.range_succ, List.map_append, List.flatten_append, List.map_append, List.pairwise_append]
        simp only [List.map_cons, List.map_nil, List.flatten_cons, List.flatten_nil, List.append_nil]
        refine ⟨ih, ?_, ?_⟩
        · rw [List.pairwise_map]
          refine List.pairwise_iff_getElem.2 fun k l hk hl _ => ?_
          rw [(mem_obsOfCamera hd (List.getElem_mem hk)).1, (mem_obsOfCamera hd (List.getElem_mem hl)).1]
        · intro x hx y hy
          obtain ⟨o, ho, rfl⟩ := List.mem_map.1 hx
          obtain ⟨o', ho', rfl⟩ := List.mem_map.1 hy
          obtain ⟨l, hl', ho⟩ := List.mem_flatten.1 ho
          obtain ⟨i, hi, rfl⟩ := List.mem_map.1 hl'
          rw [List.mem_range] at hi
          rw [(mem_obsOfCamera hd ho).1, (mem_obsOfCamera hd ho').1]
          omega
    exact key _

/-- **The features are near the projections of the true points in the true cameras**: the error of `Reprojection` is at most
`feat_random` in each coordinate, or for outliers `feat_random + outlier_feat_random`; if no draw is below
`prob_feat_is_outlier` there are no outliers. -/
theorem generate_features {a : Args} {d : Draws} {D : Dataset} (hf : 0 ≤ a.featRandom) (ho : 0 ≤ a.outlierRandom)
    (hd : Possible a d) (h : generate a d = .ok D) :
    ∀ o ∈ D.observations, ∃ (gc gp : List Item) (c : Camera) (p : V3), D.gtCameras = some gc ∧ D.gtPoints = some gp ∧
      gc[o.cam.toNat]? = some (.cam c) ∧ gp[o.pt.toNat]? = some (.pt p) ∧
      (∀ k, |reprojError c.pose p o.feat c.f c.k1 c.k2 k| ≤ a.featRandom + a.outlierRandom) ∧
      ((∀ i k, a.probOutlier ≤ (d.obs i k).outlier) → ∀ k, |reprojError c.pose p o.feat c.f c.k1 c.k2 k| ≤ a.featRandom) := by
  obtain ⟨hc, hs, e1, e2, e3, e4, e5⟩ := generate_eq h
  intro o hmem
  rw [e3] at hmem
  obtain ⟨l, hl', hmem⟩ := List.mem_flatten.1 hmem
  obtain ⟨i, hi, rfl⟩ := List.mem_map.1 hl'
  rw [List.mem_range] at hi
  obtain ⟨h1, m, n, h2, h3, h4⟩ := mem_obsOfCamera hd hmem
  obtain ⟨h5, h6⟩ := spanStart_bounds hc hi
  have hn : ∀ {x r : ℝ}, Unit01 x → 0 ≤ r → |(x * 2 - 1) * r| ≤ r := by
    intro x r hx hr
    rw [abs_mul, abs_of_nonneg hr]
    have : |x * 2 - 1| ≤ 1 := abs_le.2 ⟨by linarith [hx.1], by linarith [hx.2]⟩
    nlinarith
  have key : ∀ k, reprojError (gtCamera a d i).pose (gtPoint a d (m + a.spanStart i).toNat) o.feat (gtCamera a d i).f
      (gtCamera a d i).k1 (gtCamera a d i).k2 k = -(((d.obs i n).noise k * 2 - 1) * a.featRandom +
        if (d.obs i n).outlier < a.probOutlier then ((d.obs i n).extra k * 2 - 1) * a.outlierRandom else 0) := by
    intro k
    rw [project_reprojection, Pi.sub_apply, h4]
    simp only [feature]
    split <;> ring
  refine ⟨_, _, gtCamera a d i, gtPoint a d (m + a.spanStart i).toNat, e4, e5, ?_, ?_, fun k => ?_, fun hno k => ?_⟩
  · have : o.cam.toNat = i := by omega
    rw [this]
    simp [hi]
  · have : o.pt.toNat = (m + a.spanStart i).toNat := by rw [h3]
    rw [this]
    have : (m + a.spanStart i).toNat < a.numPoints := by omega
    simp [this]
  · rw [key, abs_neg]
    refine (abs_add_le _ _).trans (add_le_add (hn ((hd.obs i n).1 k) hf) ?_)
    split
    · exact hn ((hd.obs i n).2.2 k) ho
    · simpa using ho
  · rw [key, abs_neg, if_neg (not_lt.2 (hno i n)), add_zero]
    exact hn ((hd.obs i n).1 k) hf

/-- **The starting values are near the truth**: the coordinates of the points differ by at most 0.2, the intrinsics of the cameras
are the same and the cameras are perturbed as in `perturbed_near`. The true intrinsics are in their ranges. -/
theorem generate_near {a : Args} {d : Draws} {D : Dataset} (hd : Possible a d) (h : generate a d = .ok D) :
    (∀ j < a.numPoints, ∃ p q gp, D.points[j]? = some (.pt p) ∧ D.gtPoints = some gp ∧ gp[j]? = some (.pt q) ∧
      ∀ k, |p k - q k| ≤ 0.2) ∧
    ∀ i < a.numCameras, ∃ b c gc, D.cameras[i]? = some (.cam b) ∧ D.gtCameras = some gc ∧ gc[i]? = some (.cam c) ∧
      b.f = c.f ∧ b.k1 = c.k1 ∧ b.k2 = c.k2 ∧ 900 ≤ c.f ∧ c.f ≤ 1100 ∧ |c.k1| ≤ 0.1 ∧ |c.k2| ≤ 0.05 ∧
      (∃ Q x φ, b.pose.R = Q * c.pose.R ∧ Rotates Q x φ ∧ 0 ≤ φ ∧ φ ≤ 0.2) ∧
      ∃ δ : V3, center b.pose - center c.pose = -(b.pose.Rᵀ *ᵥ δ) ∧ ∀ k, |δ k| ≤ 0.2 := by
  obtain ⟨hc, hs, e1, e2, e3, e4, e5⟩ := generate_eq h
  refine ⟨fun j hj => ⟨fun k => gtPoint a d j k + (d.ptNoise j k * 2 - 1) * 0.2, gtPoint a d j, _, ?_, e5, ?_, fun k => ?_⟩,
    fun i hi => ⟨perturbed 0.1 0.2 (d.camNoise i) (gtCamera a d i), gtCamera a d i, _, ?_, e4, ?_, rfl, rfl, rfl, ?_⟩⟩
  · rw [e2]; simp [hj]
  · simp [hj]
  · have := hd.ptNoise j k
    rw [add_sub_cancel_left, abs_le]
    constructor <;> nlinarith [this.1, this.2]
  · rw [e1]; simp [hi]
  · simp [hi]
  · obtain ⟨h1, h2, h3, h4, h5, h6, h7⟩ := hd.cam i
    obtain ⟨g1, g2, g3, g4⟩ := hd.camNoise i
    obtain ⟨-, -, -, ⟨Q, x, φ, k1, k2, k3, k4⟩, k5⟩ :=
      perturbed_near (r := 0.1) (p := 0.2) (by norm_num) (by norm_num) (gtCamera a d i) g1 g2 g3 g4
    refine ⟨?_, ?_, ?_, ?_, ⟨Q, x, φ, k1, k2, k3, by linarith⟩, k5⟩
    · show 900 ≤ ((d.cam i).f * 2 - 1) * 100 + 1000; linarith [h5.1]
    · show ((d.cam i).f * 2 - 1) * 100 + 1000 ≤ 1100; linarith [h5.2]
    · show |((d.cam i).k1 * 2 - 1) * 0.1 + 0| ≤ 0.1
      rw [abs_le]; constructor <;> nlinarith [h6.1, h6.2]
    · show |((d.cam i).k2 * 2 - 1) * 0.05 + 0| ≤ 0.05
      rw [abs_le]; constructor <;> nlinarith [h7.1, h7.2]

/-- **Points that are never observed**: whatever is drawn, no camera observes a point beyond the span of the last one. -/
theorem generate_unobserved {a : Args} {d : Draws} {D : Dataset} (hd : Possible a d) (h : generate a d = .ok D) :
    ∀ o ∈ D.observations, o.pt < a.spanStart (a.numCameras - 1) + a.spanSize := by
  obtain ⟨hc, hs, e1, e2, e3, e4, e5⟩ := generate_eq h
  intro o hmem
  rw [e3] at hmem
  obtain ⟨l, hl', hmem⟩ := List.mem_flatten.1 hmem
  obtain ⟨i, hi, rfl⟩ := List.mem_map.1 hl'
  rw [List.mem_range] at hi
  obtain ⟨h1, m, n, h2, h3, h4⟩ := mem_obsOfCamera hd hmem
  have := spanStart_mono (a := a) (show i ≤ a.numCameras - 1 by omega)
  omega

/-- With 10 cameras and 100 points and the default arguments, the last two points are never observed, although every
point is meant to be observed by 7 cameras on average. -/
theorem default_unobserved {d : Draws} {D : Dataset} (hd : Possible { numCameras := 10, numPoints := 100 } d)
    (h : generate { numCameras := 10, numPoints := 100 } d = .ok D) : ∀ o ∈ D.observations, o.pt < 98 := by
  intro o ho
  have h1 := generate_unobserved hd h o ho
  have ht : trunc (0.1 * ((100 : ℕ) : ℝ)) = 10 := by
    unfold trunc
    rw [if_pos (by norm_num)]
    norm_num
  have hs : Args.spanSize { numCameras := 10, numPoints := 100 } = 80 := by
    simp only [Args.spanSize, Args.ptsPerCam, ht]
    norm_num
  simp only [Args.spanStart, hs] at h1
  norm_num at h1
  exact h1

/-- All hypotheses can be met: two cameras, three points and draws of 1/2. -/
noncomputable def someDraws : Draws :=
  ⟨fun _ => ⟨⟨1 / 2, 1 / 2, 1 / 2, fun _ => 1 / 2⟩, 1 / 2, 1 / 2, 1 / 2⟩, fun _ => ⟨1 / 2, 1 / 2, 1 / 2, fun _ => 1 / 2⟩,
    fun _ _ => 1 / 2, fun _ _ => 1 / 2, fun _ => List.range (Args.spanSize { numCameras := 2, numPoints := 3 }).toNat,
    fun _ _ => ⟨fun _ => 1 / 2, 1 / 2, fun _ => 1 / 2⟩⟩

theorem someDraws_possible : Possible { numCameras := 2, numPoints := 3 } someDraws := by
  have hU : Unit01 (1 / 2) := ⟨by norm_num, by norm_num⟩
  exact ⟨fun i => ⟨hU, hU, hU, fun _ => hU, hU, hU, hU⟩, fun i => ⟨hU, hU, hU, fun _ => hU⟩, fun _ _ => hU, fun _ _ => hU,
    fun _ => .refl _, fun _ _ => ⟨fun _ => hU, hU, fun _ => hU⟩⟩

example : ∃ D, generate { numCameras := 2, numPoints := 3 } someDraws = .ok D ∧
    (D.observations.filter fun o => o.cam = ((1 : ℕ) : ℤ)).length = 3 ∧ ∀ o ∈ D.observations, o.pt < 3 := by
  obtain ⟨D, hD⟩ := (generate_returns { numCameras := 2, numPoints := 3 } someDraws).2
    ⟨by norm_num, spanSize_nonneg (by norm_num)⟩
  have h := generate_observations (by norm_num) someDraws_possible hD
  obtain ⟨-, -, e1, e2, -, -, -⟩ := generate_eq hD
  have l1 : D.cameras.length = 2 := by rw [e1]; simp
  have l2 : D.points.length = 3 := by rw [e2]; simp
  refine ⟨D, hD, (h.2.1 1 (by omega)).2, fun o ho => ?_⟩
  obtain ⟨j, hj, hl⟩ := (h.1 o ho).2
  omega

/-! ### `histogram` -/

theorem pyGet_ok {α : Type} {l : List α} {i : ℤ} {x : α} : pyGet l i = .ok x ↔
    (0 ≤ i ∧ l[i.toNat]? = some x) ∨ (i < 0 ∧ 0 ≤ l.length + i ∧ l[(l.length + i).toNat]? = some x) := by
  unfold pyGet
  by_cases hi : i < 0
  · simp only [hi, if_true]
    by_cases hk : (l.length : ℤ) + i < 0
    · rw [if_pos hk]
      exact iff_of_false (by simp) (by omega)
    · rw [if_neg hk]
      cases hx : l[((l.length : ℤ) + i).toNat]? with
      | none => exact iff_of_false (by simp) (by simp; omega)
      | some y =>
        simp only [Except.ok.injEq, Option.some.injEq, true_and]
        constructor
        · intro h; exact .inr ⟨by omega, h⟩
        · rintro (h | h)
          · omega
          · exact h.2
  · simp only [hi, if_false]
    cases hx : l[i.toNat]? with
    | none => exact iff_of_false (by simp) (by simp)
    | some y =>
      simp only [Except.ok.injEq, Option.some.injEq, false_and, or_false]
      constructor
      · intro h; exact ⟨by omega, h⟩
      · exact fun h => h.2

/-- The error of an observation in pixels. -/
def HasError (cams : List Camera) (pts : List V3) (o : Obs) (e : ℝ) : Prop :=
  ∃ c p, pyGet cams o.cam = .ok c ∧ pyGet pts o.pt = .ok p ∧ c.pose.transform p 2 ≠ 0 ∧ 0 ≤ e ∧
    e ^ 2 = ∑ k, reprojError c.pose p o.feat c.f c.k1 c.k2 k ^ 2

theorem bucketOf_ok {cams : List Camera} {pts : List V3} {o : Obs} {b : ℕ} : bucketOf cams pts o = .ok b ↔
    ∃ e, HasError cams pts o e ∧ b = min ⌊e⌋₊ 10 := by
  have hsum : ∀ (c : Camera) (p : V3), ∑ k, reprojError c.pose p o.feat c.f c.k1 c.k2 k ^ 2 =
      (o.feat 0 - project c p 0) ^ 2 + (o.feat 1 - project c p 1) ^ 2 := by
    intro c p
    rw [project_reprojection, Fin.sum_univ_two, Pi.sub_apply, Pi.sub_apply]
    ring
  simp only [bucketOf, bind_ok]
  constructor
  · rintro ⟨c, hc, p, hp, h⟩
    split at h
    · cases h
    · rename_i hz
      injection h with h
      refine ⟨_, ⟨c, p, hc, hp, hz, Real.sqrt_nonneg _, ?_⟩, h.symm⟩
      rw [Real.sq_sqrt (by positivity), hsum]
  · rintro ⟨e, ⟨c, p, hc, hp, hz, he, h⟩, rfl⟩
    refine ⟨c, hc, p, hp, ?_⟩
    rw [if_neg hz, ← hsum, ← h, Real.sqrt_sq he]

theorem buckets_ok {cams : List Camera} {pts : List V3} {obs : List Obs} {l : List ℕ} : buckets cams pts obs = .ok l ↔
    List.Forall₂ (fun o b => bucketOf cams pts o = .ok b) obs l := by
  induction obs generalizing l with
  | nil =>
    constructor
    · intro h; injection h with h; subst h; exact .nil
    · rintro ⟨⟩; rfl
  | cons o os ih =>
    simp only [buckets, bind_ok]
    constructor
    · rintro ⟨b, h1, bs, h2, h3⟩
      injection h3 with h3
      subst h3
      exact .cons h1 (ih.1 h2)
    · intro h
      cases h with
      | cons h1 h2 => exact ⟨_, h1, _, ih.2 h2, rfl⟩

theorem pyRound_near (q : ℚ) : |(pyRound q : ℚ) - q| ≤ 1 / 2 := by
  have h1 := Int.floor_le q
  have h2 := Int.lt_floor_add_one q
  unfold pyRound
  dsimp only
  rw [abs_le]
  split
  · constructor <;> linarith
  · split
    · push_cast; constructor <;> linarith
    · split
      · constructor <;> linarith
      · push_cast; constructor <;> linarith

/-- **`histogram` returns exactly if there are observations and each has an error**: its indices exist (as indices of Python
lists) and the point is not in the plane of the camera. -/
theorem histogram_returns (cams : List Camera) (pts : List V3) (obs : List Obs) :
    (∃ H, histogram cams pts obs = .ok H) ↔ obs ≠ [] ∧ ∀ o ∈ obs, ∃ e, HasError cams pts o e := by
  constructor
  · rintro ⟨H, h⟩
    simp only [histogram, bind_ok] at h
    obtain ⟨l, hl, h⟩ := h
    rw [buckets_ok] at hl
    refine ⟨?_, ?_⟩
    · rintro rfl
      cases hl
      simp at h
    · clear h
      induction hl with
      | nil => simp
      | cons h1 _ ih =>
        obtain ⟨e, he, -⟩ := bucketOf_ok.1 h1
        intro o ho
        rcases List.mem_cons.1 ho with rfl | ho
        · exact ⟨e, he⟩
        · exact ih o ho
  · rintro ⟨h0, h⟩
    have hl : ∃ l, buckets cams pts obs = .ok l := by
      clear h0
      induction obs with
      | nil => exact ⟨[], rfl⟩
      | cons o os ih =>
        obtain ⟨e, he⟩ := h o (by simp)
        obtain ⟨l, hl⟩ := ih fun o ho => h o (by simp [ho])
        exact ⟨_, buckets_ok.2 (.cons (bucketOf_ok.2 ⟨e, he, rfl⟩) (buckets_ok.1 hl))⟩
    obtain ⟨l, hl⟩ := hl
    simp only [histogram, hl, bind]
    rw [if_neg]
    · exact ⟨_, rfl⟩
    · intro hmost
      rw [buckets_ok] at hl
      cases hl with
      | nil => exact h0 rfl
      | @cons o b os bs h1 _ =>
        obtain ⟨e, -, hb⟩ := bucketOf_ok.1 h1
        have hlt : b < 11 := by omega
        have := Finset.le_sup (f := fun k : Fin 11 => (b :: bs).count k.1) (Finset.mem_univ ⟨b, hlt⟩)
        rw [hmost] at this
        simp at this

/-- **Every observation is counted once, in the bucket of its error**: bucket `k` has the observations with errors from `k` up to
`k + 1` pixels, the last one all others; the bars are between 0 and 80 characters, and longest (80) for the
fullest bucket. -/
theorem histogram_counts {cams : List Camera} {pts : List V3} {obs : List Obs} {H : Fin 11 → ℕ × ℤ}
    (h : histogram cams pts obs = .ok H) :
    ∑ k, (H k).1 = obs.length ∧
    (∀ errs : List ℝ, List.Forall₂ (HasError cams pts) obs errs →
      (∀ k : Fin 11, k.1 < 10 → (H k).1 = (errs.filter fun e => decide ((k.1 : ℝ) ≤ e ∧ e < k.1 + 1)).length) ∧
      (H 10).1 = (errs.filter fun e => decide ((10 : ℝ) ≤ e)).length) ∧
    (∀ k, 0 ≤ (H k).2 ∧ (H k).2 ≤ 80) ∧ ∀ k, (∀ j, (H j).1 ≤ (H k).1) → (H k).2 = 80 := by
  simp only [histogram, bind_ok] at h
  obtain ⟨l, hl, h⟩ := h
  rw [buckets_ok] at hl
  split at h
  · cases h
  rename_i hm
  injection h with h
  subst h
  dsimp only
  set most := Finset.univ.sup fun k : Fin 11 => l.count k.1 with hmost
  have hle : ∀ k : Fin 11, l.count k.1 ≤ most := fun k =>
    Finset.le_sup (f := fun k : Fin 11 => l.count k.1) (Finset.mem_univ k)
  have hpos : (0 : ℚ) < most := by exact_mod_cast Nat.pos_of_ne_zero hm
  refine ⟨?_, ?_, ?_, ?_⟩
  · rw [hl.length_eq]
    have hb : ∀ b ∈ l, b < 11 := by
      clear hm hmost hle hpos most
      induction hl with
      | nil => simp
      | cons h1 _ ih =>
        obtain ⟨e, -, hb⟩ := bucketOf_ok.1 h1
        intro b hb'
        rcases List.mem_cons.1 hb' with rfl | hb'
        · omega
        · exact ih b hb'
    clear hl hm hmost hle hpos most
    induction l with
    | nil => simp
    | cons b l ih =>
      have h1 := ih fun x hx => hb x (by simp [hx])
      simp only [List.count_cons, Finset.sum_add_distrib, h1, List.length_cons]
      congr 1
      have h2 : b < 11 := hb b (by simp)
      rw [Finset.sum_eq_single (⟨b, h2⟩ : Fin 11)]
      · simp
      · intro k _ hk
        rw [if_neg]
        simp only [beq_iff_eq]
        exact fun hbk => hk (Fin.ext hbk.symm)
      · intro hn; exact absurd (Finset.mem_univ _) hn
  · intro errs he
    have huniq : List.Forall₂ (fun (e : ℝ) b => 0 ≤ e ∧ b = min ⌊e⌋₊ 10) errs l := by
      clear hm hmost hle hpos most
      induction hl generalizing errs with
      | nil => cases he; exact .nil
      | cons h1 _ ih =>
        cases he with
        | cons h2 h3 =>
          refine .cons ?_ (ih _ h3)
          obtain ⟨e, ⟨c, p, c1, c2, c3, c4, c5⟩, hb⟩ := bucketOf_ok.1 h1
          obtain ⟨c', p', d1, d2, d3, d4, d5⟩ := h2
          rw [c1] at d1
          rw [c2] at d2
          cases d1
          cases d2
          have : e = _ := (pow_left_inj₀ c4 d4 two_ne_zero).1 (c5.trans d5.symm)
          exact ⟨d4, by rw [hb, this]⟩
    clear hm hmost hle hpos most hl he
    constructor
    · intro k hk
      induction huniq with
      | nil => rfl
      | @cons e b es bs h1 _ ih =>
        have hiff : b = k.1 ↔ ((k.1 : ℝ) ≤ e ∧ e < k.1 + 1) := by
          rw [h1.2]
          have h3 := Nat.floor_eq_iff h1.1 (n := k.1)
          rw [← h3]
          omega
        rw [List.count_cons, ih, List.filter_cons]
        by_cases hb : b = k.1
        · simp [hb, hiff.1 hb]
        · have : ¬ ((k.1 : ℝ) ≤ e ∧ e < k.1 + 1) := fun hh => hb (hiff.2 hh)
          simp [hb, this]
    · induction huniq with
      | nil => rfl
      | @cons e b es bs h1 _ ih =>
        have hiff : b = 10 ↔ (10 : ℝ) ≤ e := by
          rw [h1.2]
          have h3 : (10 : ℕ) ≤ ⌊e⌋₊ ↔ ((10 : ℕ) : ℝ) ≤ e := Nat.le_floor_iff h1.1
          push_cast at h3
          rw [← h3]
          omega
        have e10 : ((10 : Fin 11) : ℕ) = 10 := rfl
        rw [e10] at ih ⊢
        rw [List.count_cons, ih, List.filter_cons]
        by_cases hb : b = 10
        · simp [hb, hiff.1 hb]
        · have : ¬ ((10 : ℝ) ≤ e) := fun hh => hb (hiff.2 hh)
          simp [hb, this]
  · intro k
    have h1 := abs_le.1 (pyRound_near ((l.count k.1 : ℚ) * 80 / most))
    have h2 : (0 : ℚ) ≤ (l.count k.1 : ℚ) * 80 / most := by positivity
    have h3 : (l.count k.1 : ℚ) * 80 / most ≤ 80 := by
      rw [div_le_iff₀ hpos]
      have : (l.count k.1 : ℚ) ≤ most := by exact_mod_cast hle k
      linarith
    constructor
    · have : (-1 : ℚ) < pyRound ((l.count k.1 : ℚ) * 80 / most) := by linarith
      have : (-1 : ℤ) < pyRound ((l.count k.1 : ℚ) * 80 / most) := by exact_mod_cast this
      omega
    · have : (pyRound ((l.count k.1 : ℚ) * 80 / most) : ℚ) < 81 := by linarith
      have : pyRound ((l.count k.1 : ℚ) * 80 / most) < (81 : ℤ) := by exact_mod_cast this
      omega
  · intro k hk
    have hkm : l.count k.1 = most := le_antisymm (hle k) (Finset.sup_le fun j _ => hk j)
    rw [hkm]
    have : (most : ℚ) * 80 / most = 80 := by field_simp
    rw [this]
    norm_num [pyRound]

/-- The error of a point at `(1, 1, 1)` that the camera at the origin should see at `(0, 0)` is `√2`, in bucket 1. -/
example : ∃ H, histogram [⟨⟨1, 0⟩, 1, 0, 0⟩] [fun _ => 1] [⟨0, 0, fun _ => 0⟩] = .ok H ∧ (H 1).1 = 1 ∧ (H 1).2 = 80 := by
  have he : HasError [⟨⟨1, 0⟩, 1, 0, 0⟩] [fun _ => 1] ⟨0, 0, fun _ => 0⟩ (Real.sqrt 2) := by
    refine ⟨⟨⟨1, 0⟩, 1, 0, 0⟩, fun _ => 1, rfl, rfl, ?_, Real.sqrt_nonneg _, ?_⟩
    · simp [SE3.transform]
    · rw [Real.sq_sqrt (by norm_num)]
      rw [project_reprojection ⟨⟨1, 0⟩, 1, 0, 0⟩]
      simp [project, SE3.transform]
      norm_num
  obtain ⟨H, hH⟩ := (histogram_returns [⟨⟨1, 0⟩, 1, 0, 0⟩] [fun _ => 1] [⟨0, 0, fun _ => 0⟩]).2
    ⟨by simp, fun o ho => by rw [List.mem_singleton.1 ho]; exact ⟨_, he⟩⟩
  obtain ⟨h0, h1, h2, h3⟩ := histogram_counts hH
  have h4 : (H 1).1 = 1 := by
    rw [(h1 [Real.sqrt 2] (.cons he .nil)).1 1 (by decide)]
    have a1 : (1 : ℝ) ≤ Real.sqrt 2 := Real.le_sqrt_of_sq_le (by norm_num)
    have a2 : Real.sqrt 2 < 1 + 1 := by
      rw [Real.sqrt_lt' (by norm_num)]; norm_num
    simp [a1, a2]
  refine ⟨H, hH, h4, h3 1 fun j => ?_⟩
  rw [h4]
  have := Finset.single_le_sum (f := fun k => (H k).1) (fun _ _ => Nat.zero_le _) (Finset.mem_univ j)
  rw [h0] at this
  exact this

end Verif.Bundle
