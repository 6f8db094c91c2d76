import Verif.Geometry.Planar

/-!
# Models of `torchlie/torchlie/functional/so3_impl.py` and `se3_impl.py`

One batch element at a time, over the real numbers, as in `Planar`.  An `SO3` element is its 3x3
matrix, an `SE3` element its 3x4 matrix `[R | t]`.  The thresholds `near_zero`, `d_near_zero` and
`near_pi` of `LIE_PARAMS` are parameters `eps`, `deps`, `epi`.  `theseus/geometry/so3.py` and
`se3.py` call these functions for all the operations modelled here.

The Jacobians and the backward functions are modelled too; the checks (`check_group_tensor` etc.)
are in `SpatialChecks`.
-/

namespace Verif.Geometry
open Matrix

/-- 3x3 matrices and 3-vectors. -/
abbrev M3 := Matrix (Fin 3) (Fin 3) ℝ
abbrev V3 := Fin 3 → ℝ

/-- The dot product, `torch.cross` and `u vᵀ`. -/
def dot3 (u v : V3) : ℝ := u 0 * v 0 + u 1 * v 1 + u 2 * v 2
def cross3 (u v : V3) : V3 :=
  ![u 1 * v 2 - u 2 * v 1, u 2 * v 0 - u 0 * v 2, u 0 * v 1 - u 1 * v 0]
def outer3 (u v : V3) : M3 := Matrix.of fun i j => u i * v j

/-- `torch.linalg.norm` of a 3-vector. -/
noncomputable def norm3 (v : V3) : ℝ := Real.sqrt (dot3 v v)

namespace SO3

/-- `_hat_impl` (so3_impl.py L587-599); `_lift_impl` (L940-950) is the same. -/
def hat (v : V3) : M3 := !![0, -v 2, v 1; v 2, 0, -v 0; -v 1, v 0, 0]

/-- `_project_impl` (so3_impl.py L977-986). -/
def project (m : M3) : V3 := ![m 2 1 - m 1 2, m 0 2 - m 2 0, m 1 0 - m 0 1]

/-- `_vee_impl` (so3_impl.py L633-642), without the check. -/
noncomputable def veeRaw (m : M3) : V3 := (1 / 2 : ℝ) • project m

/-- `cosine` in `_exp_impl_helper` (so3_impl.py L228). -/
noncomputable def expC (eps θ : ℝ) : ℝ := if θ < eps then 8 / (4 + θ ^ 2) - 1 else Real.cos θ

/-- `sine_by_theta` in `_exp_impl_helper` (so3_impl.py L229-230). -/
noncomputable def expS (eps θ : ℝ) : ℝ :=
  if θ < eps then 1 / 2 * expC eps θ + 1 / 2 else Real.sin θ / θ

/-- `one_minus_cosine_by_theta2` in `_exp_impl_helper` (so3_impl.py L231-233). -/
noncomputable def expK (eps θ : ℝ) : ℝ :=
  if θ < eps then 1 / 2 * expS eps θ else (1 - expC eps θ) / θ ^ 2

/-- The matrix assembled at the end of `_exp_impl_helper` (so3_impl.py L235-252) from the three
coefficients: `k v vᵀ + c I + hat(s v)`. -/
def rod (k c s : ℝ) (v : V3) : M3 := k • outer3 v v + c • (1 : M3) + hat (s • v)

/-- `_exp_impl` (so3_impl.py L220-267). -/
noncomputable def exp (eps : ℝ) (v : V3) : M3 :=
  let θ := norm3 v
  rod (expK eps θ) (expC eps θ) (expS eps θ) v

/-- `theta_minus_sine_by_theta3` of `_jexp_impl` (so3_impl.py L308-312). -/
noncomputable def expQ (eps θ : ℝ) : ℝ := if θ < eps then 0 else (θ - Real.sin θ) / (θ * θ ^ 2)

/-- `_jexp_impl_helper` (so3_impl.py L270-290). -/
def jexpOf (s k q : ℝ) (v : V3) : M3 := q • outer3 v v + s • (1 : M3) - hat (k • v)

/-- `_jexp_impl` (so3_impl.py L293-320). -/
noncomputable def jexp (eps : ℝ) (v : V3) : M3 :=
  let θ := norm3 v
  jexpOf (expS eps θ) (expK eps θ) (expQ eps θ) v

/-- `_sine_axis_fn` (so3_impl.py L366-384; the three branches compute the same numbers, up to the
layout of the CUDA gather, which is not modelled). -/
noncomputable def sineAxis (R : M3) : V3 :=
  ![1 / 2 * (R 2 1 - R 1 2), 1 / 2 * (R 0 2 - R 2 0), 1 / 2 * (R 1 0 - R 0 1)]

/-- `cosine` of `_log_impl_helper` (so3_impl.py L393). -/
noncomputable def cosine (R : M3) : ℝ := 1 / 2 * (R 0 0 + R 1 1 + R 2 2 - 1)

/-- `sine` of `_log_impl_helper` (so3_impl.py L394). -/
noncomputable def sine (R : M3) : ℝ := norm3 (sineAxis R)

/-- `theta` of `_log_impl_helper` (so3_impl.py L395). -/
noncomputable def theta (R : M3) : ℝ := SO2.atan2 (sine R) (cosine R)

/-- `scale` of `_log_impl_helper` (so3_impl.py L401-409), with its divisor `sine_nz`. -/
noncomputable def logScale (eps epi : ℝ) (R : M3) : ℝ :=
  open Classical in
  if theta R < eps ∨ 1 + cosine R ≤ epi then 1 + sine R ^ 2 / 6 else theta R / sine R

/-- `major` of `_log_impl_helper` (so3_impl.py L413-420). -/
noncomputable def major (R : M3) : Fin 3 :=
  open Classical in
  if R 1 1 > R 0 0 ∧ R 1 1 > R 2 2 then 1 else if R 2 2 > R 0 0 ∧ R 2 2 > R 1 1 then 2 else 0

/-- `sel_rows` of `_log_impl_helper` (so3_impl.py L422-423). -/
noncomputable def selRow (R : M3) : V3 := fun j =>
  1 / 2 * (R (major R) j + R j (major R)) - (if j = major R then cosine R else 0)

/-- The divisor of `axis` in `_log_impl_helper` (so3_impl.py L424-428). -/
noncomputable def axisDenominator (eps : ℝ) (R : M3) : ℝ :=
  if theta R < eps then 1 else norm3 (selRow R)

/-- `sign` of `_log_impl_helper` (so3_impl.py L429-430). -/
noncomputable def logSign (R : M3) : ℝ :=
  if sineAxis R (major R) < 0 then -1 else 1

/-- `_log_impl_helper` (so3_impl.py L390-433), the tangent vector. -/
noncomputable def log (eps epi : ℝ) (R : M3) : V3 :=
  open Classical in
  if 1 + cosine R ≤ epi then
    (theta R * logSign R) • ((axisDenominator eps R)⁻¹ • selRow R)
  else logScale eps epi R • sineAxis R

/-- The coefficient `a` (so3_impl.py L460; se3_impl.py L371 with `near_zero`). -/
noncomputable def logA (d : ℝ) (R : M3) : ℝ :=
  if theta R < d then 1 - theta R ^ 2 / 12
  else -(sine R * theta R) / (2 * cosine R - 2)

/-- The coefficient `b` (so3_impl.py L461-465; se3_impl.py L372-376 with `near_zero`). -/
noncomputable def logB (d : ℝ) (R : M3) : ℝ :=
  if theta R < d then 1 / 12 + theta R ^ 2 / 720
  else (sine R * theta R + (2 * cosine R - 2)) / (theta R ^ 2 * (2 * cosine R - 2))

/-- `_jlog_impl_helper` (so3_impl.py L442-479). -/
noncomputable def jlogOf (a b : ℝ) (w : V3) : M3 :=
  outer3 (b • w) w + hat ((1 / 2 : ℝ) • w) + a • (1 : M3)

/-- `_jlog_impl` (so3_impl.py L482-486). -/
noncomputable def jlog (eps deps epi : ℝ) (R : M3) : M3 :=
  jlogOf (logA deps R) (logB deps R) (log eps epi R)

/-- `SO3` as a `LieGroup` (`_compose_impl` L669-672, `_inverse_impl` L561-563, `_adjoint_impl`
L534-536). -/
noncomputable def ops (eps deps epi : ℝ) : Ops 3 M3 where
  compose A B := A * B
  inverse A := Aᵀ
  exp := exp eps
  log := log eps epi
  adjoint A := A
  dlog := jlog eps deps epi

/-- `_jcompose_impl` (so3_impl.py L675-685). -/
def jcompose (_A B : M3) : M3 × M3 := (Bᵀ, 1)

/-- `_transform_impl` (so3_impl.py L717-721) and its Jacobians (L724-735). -/
def transform (R : M3) (p : V3) : V3 := R *ᵥ p
def jtransform (R : M3) (p : V3) : M3 × M3 := (-R * hat p, R)

/-- `_untransform_impl` (so3_impl.py L769-773) and its Jacobians (L776-787). -/
def untransform (R : M3) (p : V3) : V3 := Rᵀ *ᵥ p
def juntransform (R : M3) (p : V3) : M3 × M3 := (hat (untransform R p), Rᵀ)

/-- A quaternion `w, x, y, z`; `torch.norm` of it. -/
noncomputable def quatNorm (q : Fin 4 → ℝ) : ℝ :=
  Real.sqrt (q 0 ^ 2 + q 1 ^ 2 + q 2 ^ 2 + q 3 ^ 2)

/-- The matrix of a normalised quaternion (so3_impl.py L825-851). -/
def quatMatrix (w x y z : ℝ) : M3 :=
  !![w * w + x * x - y * y - z * z, 2 * (x * y - w * z), 2 * (x * z + w * y);
     2 * (x * y + w * z), w * w - x * x + y * y - z * z, 2 * (y * z - w * x);
     2 * (x * z - w * y), 2 * (y * z + w * x), w * w - x * x - y * y + z * z]

/-- `_quaternion_to_rotation_impl` (so3_impl.py L821-852), without the check. -/
noncomputable def ofQuaternion (q : Fin 4 → ℝ) : M3 :=
  let n := quatNorm q
  quatMatrix (q 0 / n) (q 1 / n) (q 2 / n) (q 3 / n)

/-- The Jacobian of `_jquaternion_to_rotation_impl` (so3_impl.py L889-897). -/
noncomputable def jquaternion (q : Fin 4 → ℝ) : Matrix (Fin 3) (Fin 4) ℝ :=
  let n := quatNorm q
  let t : Fin 4 → ℝ := fun i => -2 * (q i / n) / n
  !![t 1, -t 0, -t 3, t 2;
     t 2, t 3, -t 0, -t 1;
     t 3, -t 2, t 1, -t 0]

end SO3

/-- An `SE3` tensor `[R | t]`. -/
@[ext] structure SE3 where
  R : M3
  t : V3

namespace SE3

/-- The two halves of a tangent vector: linear first (se3_impl.py L193-194). -/
def lin (v : Fin 6 → ℝ) : V3 := ![v 0, v 1, v 2]
def ang (v : Fin 6 → ℝ) : V3 := ![v 3, v 4, v 5]
def join (u w : V3) : Fin 6 → ℝ := ![u 0, u 1, u 2, w 0, w 1, w 2]

/-- A 6x6 matrix by blocks. -/
def block (A B C D : M3) : Matrix (Fin 6) (Fin 6) ℝ :=
  !![A 0 0, A 0 1, A 0 2, B 0 0, B 0 1, B 0 2;
     A 1 0, A 1 1, A 1 2, B 1 0, B 1 1, B 1 2;
     A 2 0, A 2 1, A 2 2, B 2 0, B 2 1, B 2 2;
     C 0 0, C 0 1, C 0 2, D 0 0, D 0 1, D 0 2;
     C 1 0, C 1 1, C 1 2, D 1 0, D 1 1, D 1 2;
     C 2 0, C 2 1, C 2 2, D 2 0, D 2 1, D 2 2]

/-- A 4x4 matrix `[A b; 0 e]`. -/
def hom (A : M3) (b : V3) (e : ℝ) : Matrix (Fin 4) (Fin 4) ℝ :=
  !![A 0 0, A 0 1, A 0 2, b 0;
     A 1 0, A 1 1, A 1 2, b 1;
     A 2 0, A 2 1, A 2 2, b 2;
     0, 0, 0, e]

/-- `SE3.to_matrix` (theseus/geometry/se3.py L191-195). -/
def toMatrix (g : SE3) : Matrix (Fin 4) (Fin 4) ℝ := hom g.R g.t 1

/-- `_hat_impl` (se3_impl.py L614-622). -/
def hat (v : Fin 6 → ℝ) : Matrix (Fin 4) (Fin 4) ℝ := hom (SO3.hat (ang v)) (lin v) 0

/-- `_vee_impl` (se3_impl.py L659-672), without the check. -/
noncomputable def veeRaw (m : Matrix (Fin 4) (Fin 4) ℝ) : Fin 6 → ℝ :=
  ![m 0 3, m 1 3, m 2 3, 1 / 2 * (m 2 1 - m 1 2), 1 / 2 * (m 0 2 - m 2 0),
    1 / 2 * (m 1 0 - m 0 1)]

/-- `identity` (se3_impl.py L159-175). -/
def one : SE3 := ⟨1, ![0, 0, 0]⟩

/-- `_compose_impl` (se3_impl.py L703-708). -/
def compose (a b : SE3) : SE3 := ⟨a.R * b.R, a.R *ᵥ b.t + a.t⟩

/-- `_inverse_impl` (se3_impl.py L578-581). -/
def inverse (a : SE3) : SE3 := ⟨a.Rᵀ, -a.Rᵀ *ᵥ a.t⟩

/-- `_adjoint_impl` (se3_impl.py L531-538). -/
def adjoint (a : SE3) : Matrix (Fin 6) (Fin 6) ℝ := block a.R (SO3.hat a.t * a.R) 0 a.R

/-- `theta_minus_sine_by_theta3_t` of `_exp_impl_helper` (se3_impl.py L197-199). -/
noncomputable def expQt (eps θ : ℝ) : ℝ :=
  if θ < eps then 1 / 6 - θ ^ 2 / 120 else (θ - Real.sin θ) / (θ * θ ^ 2)

/-- The translation computed in `_exp_impl_helper` (se3_impl.py L200-206). -/
def expT (s k q : ℝ) (u w : V3) : V3 := s • u + k • cross3 w u + q • (dot3 w u • w)

/-- `_exp_impl` (se3_impl.py L178-222). -/
noncomputable def exp (eps : ℝ) (v : Fin 6 → ℝ) : SE3 :=
  let w := ang v
  let θ := norm3 w
  ⟨SO3.exp eps w, expT (SO3.expS eps θ) (SO3.expK eps θ) (expQt eps θ) (lin v) w⟩

/-- `d_one_minus_cosine_by_theta2` and `d_theta_minus_sine_by_theta3` of `_jexp_impl_helper`
(se3_impl.py L249-258). -/
noncomputable def dK (eps θ : ℝ) : ℝ :=
  if θ < eps then -1 / 12 else (SO3.expS eps θ - 2 * SO3.expK eps θ) / θ ^ 2
noncomputable def dQ (eps θ : ℝ) : ℝ :=
  if θ < eps then -1 / 60 else (SO3.expK eps θ - 3 * expQt eps θ) / θ ^ 2

/-- `jac_temp_t` of `_jexp_impl_helper` (se3_impl.py L260-278). -/
def jexpT (k q dk dq : ℝ) (v w : V3) : M3 :=
  let wv := cross3 w v
  let wwv := cross3 w wv
  let sw := q • w
  outer3 (dk • wv + dq • wwv) w - outer3 v sw + SO3.hat (-k • v - q • wv)
    + dot3 sw v • (1 : M3)

/-- `_jexp_impl` (se3_impl.py L225-310). -/
noncomputable def jexp (eps : ℝ) (x : Fin 6 → ℝ) : Matrix (Fin 6) (Fin 6) ℝ :=
  let w := ang x
  let θ := norm3 w
  let J := SO3.jexpOf (SO3.expS eps θ) (SO3.expK eps θ)
    (if θ < eps then 0 else expQt eps θ) w
  block J ((SO3.exp eps w)ᵀ * jexpT (SO3.expK eps θ) (expQt eps θ) (dK eps θ) (dQ eps θ) (lin x) w)
    0 J

/-- `ret_lin` of `_log_impl_helper` (se3_impl.py L378-384). -/
noncomputable def logT (a b : ℝ) (t w : V3) : V3 :=
  a • t - (1 / 2 : ℝ) • cross3 w t + b • (dot3 w t • w)

/-- `_log_impl` (se3_impl.py L354-402). -/
noncomputable def log (eps epi : ℝ) (g : SE3) : Fin 6 → ℝ :=
  let w := SO3.log eps epi g.R
  join (logT (SO3.logA eps g.R) (SO3.logB eps g.R) g.t w) w

/-- `c` and `d` of `_jlog_impl_helper` (se3_impl.py L424-435); the divisors are those of
`_log_impl_helper` (L363-369), equal to the plain quantities when `theta` is not below
`near_zero`. -/
noncomputable def logC (deps : ℝ) (R : M3) : ℝ :=
  let θ := SO3.theta R
  if θ < deps then -1 / 360 - θ ^ 2 / 7560
  else -(2 * (2 * SO3.cosine R - 2) + θ * SO3.sine R + θ ^ 2)
    / ((θ ^ 2) ^ 2 * (2 * SO3.cosine R - 2))
noncomputable def logD (deps : ℝ) (R : M3) : ℝ :=
  let θ := SO3.theta R
  if θ < deps then -1 / 6 - θ ^ 2 / 180
  else (θ - SO3.sine R) / (θ * (2 * SO3.cosine R - 2))

/-- The upper right block of `_jlog_impl_helper` (se3_impl.py L437-455). -/
noncomputable def jlogT (b c d : ℝ) (u w : V3) : M3 :=
  let e := dot3 w u
  outer3 ((c * e) • w) w + (outer3 (b • w) u + outer3 u (b • w)) + (e * d) • (1 : M3)
    + SO3.hat ((1 / 2 : ℝ) • u)

/-- `_jlog_impl` (se3_impl.py L405-484). -/
noncomputable def jlog (eps deps epi : ℝ) (g : SE3) : Matrix (Fin 6) (Fin 6) ℝ :=
  let x := log eps epi g
  let J := SO3.jlogOf (SO3.logA deps g.R) (SO3.logB deps g.R) (ang x)
  block J (jlogT (SO3.logB deps g.R) (logC deps g.R) (logD deps g.R) (lin x) (ang x)) 0 J

/-- `SE3` as a `LieGroup`. -/
noncomputable def ops (eps deps epi : ℝ) : Ops 6 SE3 where
  compose := compose
  inverse := inverse
  exp := exp eps
  log := log eps epi
  adjoint := adjoint
  dlog := jlog eps deps epi

/-- `_jcompose_impl` (se3_impl.py L711-724). -/
def jcompose (_a b : SE3) : Matrix (Fin 6) (Fin 6) ℝ × Matrix (Fin 6) (Fin 6) ℝ :=
  (adjoint (inverse b), 1)

/-- A 3x6 matrix by blocks. -/
def row (A B : M3) : Matrix (Fin 3) (Fin 6) ℝ :=
  !![A 0 0, A 0 1, A 0 2, B 0 0, B 0 1, B 0 2;
     A 1 0, A 1 1, A 1 2, B 1 0, B 1 1, B 1 2;
     A 2 0, A 2 1, A 2 2, B 2 0, B 2 1, B 2 2]

/-- `_transform_impl` (se3_impl.py L757-761) and its Jacobians (L764-777). -/
def transform (g : SE3) (p : V3) : V3 := g.t + g.R *ᵥ p
def jtransform (g : SE3) (p : V3) : Matrix (Fin 3) (Fin 6) ℝ × M3 :=
  (row g.R (-g.R * SO3.hat p), g.R)

/-- `_untransform_impl` (se3_impl.py L813-817) and its Jacobians (L820-835). -/
def untransform (g : SE3) (p : V3) : V3 := g.Rᵀ *ᵥ (p - g.t)
def juntransform (g : SE3) (p : V3) : Matrix (Fin 3) (Fin 6) ℝ × M3 :=
  (row (-1) (SO3.hat (untransform g p)), g.Rᵀ)

end SE3
end Verif.Geometry
