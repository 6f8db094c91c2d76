import Verif.Bundle.File
import Verif.Embodied.Camera
import Mathlib.Analysis.SpecialFunctions.Trigonometric.Basic
import Mathlib.Algebra.Order.Floor.Ring
import Mathlib.Algebra.Order.Archimedean.Real.Basic
import Mathlib.Data.Rat.Floor

/-!
# Synthetic bundle adjustment problems and histograms (`theseus/utils/examples/bundle_adjustment/data.py` L61-139,
L254-339; `util.py` L15-68)

What is drawn from the random number generator is an argument (the order of the draws and their dtypes are not modelled).
Points in the plane `z = 0` of a camera have no projection; `project` is 0 there, and `histogram` raises.
-/

namespace Verif.Bundle
open Verif.Geometry

/-! ### Losses -/

/-- `soft_loss_cauchy` (util.py L15-21): the value and the derivative. -/
noncomputable def softCauchy (x radius : ℝ) : ℝ × ℝ :=
  let ratio := (x + radius) / radius
  (Real.log ratio * radius, 1 / ratio)

/-- `soft_loss_huber_like` (util.py L24-31). -/
noncomputable def softHuber (x radius : ℝ) : ℝ × ℝ :=
  let ratio := (x + radius) / radius
  let sq := Real.sqrt ratio
  ((sq - 1) * radius, 0.5 / sq)

/-! ### Random rotations -/

/-- `random_s2` (util.py L38-42) from two draws. -/
noncomputable def randomS2 (u v : ℝ) : V3 :=
  let theta := u * (2 * Real.pi)
  let z := v * 2 - 1
  let r := Real.sqrt (1 - z ^ 2)
  ![r * Real.cos theta, r * Real.sin theta, z]

/-- `random_s3` (util.py L46-55) from three draws. -/
noncomputable def randomS3 (u v w : ℝ) : Fin 4 → ℝ :=
  ![Real.sqrt (1 - u) * Real.sin (2 * Real.pi * v), Real.sqrt (1 - u) * Real.cos (2 * Real.pi * v),
    Real.sqrt u * Real.sin (2 * Real.pi * w), Real.sqrt u * Real.cos (2 * Real.pi * w)]

/-- The angle in `random_small_quaternion` (util.py L62-66). -/
noncomputable def smallAngle (maxDegrees minDegrees w : ℝ) : ℝ :=
  (minDegrees + (maxDegrees - minDegrees) * w) * (2 * Real.pi) / 360

/-- `random_small_quaternion` (util.py L58-68) from three draws. -/
noncomputable def smallQuaternion (maxDegrees minDegrees u v w : ℝ) : Fin 4 → ℝ :=
  let axis := randomS2 u v
  let theta := smallAngle maxDegrees minDegrees w
  let c := Real.cos theta
  let s := Real.sin theta
  ![c, s * axis 0, s * axis 1, s * axis 2]

/-- A pose from a translation and a quaternion (`SE3(x_y_z_quaternion)`; data.py L82-83, L118-119). -/
noncomputable def poseOf (t : V3) (q : Fin 4 → ℝ) : SE3 := ⟨SO3.ofQuaternion q, t⟩

/-- Draws from `[0, 1)` for a pose. -/
structure PoseDraw where
  u : ℝ
  v : ℝ
  w : ℝ
  pos : V3

/-! ### Cameras -/

/-- `Camera.project_point` (data.py L61-68). -/
noncomputable def project (c : Camera) (p : V3) : Fin 2 → ℝ :=
  let q := c.pose.transform p
  let proj : Fin 2 → ℝ := ![-q 0 / q 2, -q 1 / q 2]
  let sqn := proj 0 * proj 0 + proj 1 * proj 1
  let factor := c.f * (1 + sqn * (c.k1 + sqn * c.k2))
  fun i => proj i * factor

/-- `Camera.perturbed` (data.py L70-90). -/
noncomputable def perturbed (rotRandom posRandom : ℝ) (d : PoseDraw) (c : Camera) : Camera :=
  let pertTr : V3 := fun i => (d.pos i * 2 - 1) * posRandom                              -- 78-81
  let pert := poseOf pertTr (smallQuaternion rotRandom 0 d.u d.v d.w)                    -- 72-77, 82-83
  ⟨pert.compose c.pose, c.f, c.k1, c.k2⟩                                                 -- 84-90

/-- Draws for a camera. -/
structure CameraDraw where
  pose : PoseDraw
  f : ℝ
  k1 : ℝ
  k2 : ℝ

/-- `Camera.generate_synthetic` (data.py L92-139) with its default arguments and a base for the position. -/
noncomputable def cameraOf (posBase : V3) (d : CameraDraw) : Camera :=
  let tr : V3 := fun i => (d.pose.pos i * 2 - 1) * 1 + posBase i                         -- 114-117
  ⟨poseOf tr (smallQuaternion 20 0 d.pose.u d.pose.v d.pose.w),                          -- 108-113, 118-119
    (d.f * 2 - 1) * 100 + 1000, (d.k1 * 2 - 1) * 0.1 + 0, (d.k2 * 2 - 1) * 0.05 + 0⟩     -- 121-138

/-! ### `generate_synthetic` -/

/-- Draws for an observation. -/
structure ObsDraw where
  noise : Fin 2 → ℝ
  outlier : ℝ
  extra : Fin 2 → ℝ

/-- Everything that is drawn: for camera `i`, `perm i` is the result of `randperm`, and `obs i k` belongs to its `k`-th
observation. -/
structure Draws where
  cam : ℕ → CameraDraw
  camNoise : ℕ → PoseDraw
  pt : ℕ → V3
  ptNoise : ℕ → V3
  perm : ℕ → List ℕ
  obs : ℕ → ℕ → ObsDraw

/-- The arguments (data.py L273-281). -/
structure Args where
  numCameras : ℕ
  numPoints : ℕ
  trackLength : ℕ := 7
  locality : ℝ := 0.1
  featRandom : ℝ := 1.5
  probOutlier : ℝ := 0.02
  outlierRandom : ℝ := 70

/-- `int` of a float: truncation towards zero. -/
noncomputable def trunc (x : ℝ) : ℤ := if 0 ≤ x then ⌊x⌋ else ⌈x⌉

namespace Args
/-- `pts_per_cam` (data.py L312). -/
def ptsPerCam (a : Args) : ℕ := a.trackLength * a.numPoints / a.numCameras

/-- `span_size` (data.py L316). -/
noncomputable def spanSize (a : Args) : ℤ := min (a.ptsPerCam + trunc (a.locality * a.numPoints)) a.numPoints

/-- `span_start` (data.py L317). -/
noncomputable def spanStart (a : Args) (i : ℕ) : ℤ := (a.numPoints - a.spanSize) * i / a.numCameras
end Args

/-- The true cameras and points (data.py L283-291, L295-302). -/
noncomputable def gtCamera (a : Args) (d : Draws) (i : ℕ) : Camera :=
  cameraOf ![-(i : ℝ) * 100 / ((a.numCameras : ℝ) - 1), 0, -100] (d.cam i)
@[inherit_doc gtCamera] noncomputable def gtPoint (a : Args) (d : Draws) (i : ℕ) : V3 :=
  fun k => (d.pt i k * 2 - 1) * 20 + (![(i : ℝ) * 100 / a.numPoints, 0, 0] : V3) k

/-- The feature of an observation (data.py L320-325). -/
noncomputable def feature (a : Args) (d : Draws) (i k j : ℕ) : Fin 2 → ℝ := fun c =>
  let o := d.obs i k
  let feat := project (gtCamera a d i) (gtPoint a d j) c + (o.noise c * 2 - 1) * a.featRandom
  if o.outlier < a.probOutlier then feat + (o.extra c * 2 - 1) * a.outlierRandom else feat

/-- The observations of camera `i` (data.py L316-335). -/
noncomputable def obsOfCamera (a : Args) (d : Draws) (i : ℕ) : List Obs :=
  (((d.perm i).take a.ptsPerCam).zipIdx).map fun q =>
    let j := (q.1 + a.spanStart i).toNat
    ⟨i, (q.1 + a.spanStart i), feature a d i q.2 j⟩

/-- `BundleAdjustmentDataset.generate_synthetic` (data.py L272-339). With one camera the position of the first divides by
zero, without cameras `pts_per_cam` does; `randperm` of a negative number raises. -/
noncomputable def generate (a : Args) (d : Draws) : Except Exc Dataset :=
  if a.numCameras ≤ 1 then .error .zeroDiv                                               -- 286, 312
  else if a.spanSize < 0 then .error .runtime                                            -- 318
  else
    let gtCams := (List.range a.numCameras).map (gtCamera a d)
    let cams := (List.range a.numCameras).map fun i => perturbed 0.1 0.2 (d.camNoise i) (gtCamera a d i)  -- 292
    let gtPts := (List.range a.numPoints).map (gtPoint a d)
    let pts := (List.range a.numPoints).map fun i : ℕ => (fun k => gtPoint a d i k + (d.ptNoise i k * 2 - 1) * 0.2 : V3)  -- 303-309
    .ok ⟨cams.map .cam, pts.map .pt, ((List.range a.numCameras).map (obsOfCamera a d)).flatten,
      some (gtCams.map .cam), some (gtPts.map .pt)⟩

/-! ### `histogram` -/

/-- `l[i]` for a Python list: negative indices count from the end. -/
def pyGet {α : Type} (l : List α) (i : ℤ) : Except Exc α :=
  let k := if i < 0 then l.length + i else i
  if k < 0 then .error .index
  else match l[k.toNat]? with
    | some x => .ok x
    | none => .error .index

/-- The bucket of one observation (data.py L257-261). In the plane `z = 0` of the camera the error is infinite or NaN, and
`int` raises (`OverflowError` or `ValueError`). -/
noncomputable def bucketOf (cams : List Camera) (pts : List V3) (o : Obs) : Except Exc ℕ :=
  bind (pyGet cams o.cam) fun c => bind (pyGet pts o.pt) fun p =>
  if c.pose.transform p 2 = 0 then .error .value
  else
    let error := Real.sqrt ((o.feat 0 - project c p 0) ^ 2 + (o.feat 1 - project c p 1) ^ 2)
    .ok (min ⌊error⌋₊ 10)

/-- The loop (data.py L256-262): the buckets of all observations. -/
noncomputable def buckets (cams : List Camera) (pts : List V3) : List Obs → Except Exc (List ℕ)
  | [] => .ok []
  | o :: os => bind (bucketOf cams pts o) fun b => bind (buckets cams pts os) fun bs => .ok (b :: bs)

/-- `round` of Python: halves to the even neighbour. -/
def pyRound (q : ℚ) : ℤ :=
  let n := ⌊q⌋
  if q - n < 1 / 2 then n
  else if 1 / 2 < q - n then n + 1
  else if n % 2 = 0 then n else n + 1

/-- `histogram` (data.py L254-270): the counts and the lengths of the bars of the 11 buckets. Without observations the length
is `round` of NaN. -/
noncomputable def histogram (cams : List Camera) (pts : List V3) (obs : List Obs) :
    Except Exc (Fin 11 → ℕ × ℤ) :=
  bind (buckets cams pts obs) fun l =>
  let count : Fin 11 → ℕ := fun k => l.count k.1
  let most := Finset.univ.sup count                                                      -- 263
  if most = 0 then .error .value                                                         -- 268
  else .ok fun k => (count k, pyRound (count k * 80 / most))

end Verif.Bundle
