import Verif.Geometry.Lie
import Mathlib.Analysis.SpecialFunctions.Complex.Arg
import Mathlib.Analysis.SpecialFunctions.Trigonometric.Basic

/-!
# Models of `theseus/geometry/so2.py`, `se2.py` and `vector.py`

One batch element at a time, over the real numbers.  `torch.atan2(s, c)` is the argument of the
complex number `c + i s` (the same branch, values in `(-π, π]`, and `0` at the origin; signed
zeros are not modelled).  `torch.where(small, approx, x / y_nz)` with `y_nz = where(small, 1, y)`
is `if small then approx else x / y`.  The thresholds `se2_near_zero` and `se2_d_near_zero` are
parameters (`theseus/global_params.py` L47-60), so the results hold for every setting of the
global options that satisfies the stated conditions.
-/

namespace Verif.Geometry
open Matrix

/-- An `SO2` tensor row: `[cos, sin]` (so2.py L95-100). -/
@[ext] structure SO2 where
  c : ℝ
  s : ℝ

/-- A `Point2` tensor row. -/
@[ext] structure P2 where
  x : ℝ
  y : ℝ

namespace SO2

/-- `torch.atan2(s, c)`. -/
noncomputable def atan2 (s c : ℝ) : ℝ := Complex.arg ⟨c, s⟩

/-- `SO2._init_tensor` (so2.py L95-97). -/
def one : SO2 := ⟨1, 0⟩

/-- `SO2._compose_impl` (so2.py L224-230). -/
def compose (a b : SO2) : SO2 := ⟨a.c * b.c - a.s * b.s, a.s * b.c + a.c * b.s⟩

/-- `SO2._inverse_impl` (so2.py L232-234). -/
def inverse (a : SO2) : SO2 := ⟨a.c, -a.s⟩

/-- `SO2.exp_map` / `update_from_angle` (so2.py L99-100, L166-185). -/
noncomputable def exp (θ : ℝ) : SO2 := ⟨Real.cos θ, Real.sin θ⟩

/-- `SO2._log_map_impl` (so2.py L206-222). -/
noncomputable def log (a : SO2) : ℝ := atan2 a.s a.c

/-- `SO2._rotate_from_cos_sin` (so2.py L256-276). -/
def rotateFromCosSin (p : P2) (c s : ℝ) : P2 := ⟨c * p.x - s * p.y, s * p.x + c * p.y⟩

/-- `SO2.rotate` (so2.py L278-291). -/
def rotate (a : SO2) (p : P2) : P2 := rotateFromCosSin p a.c a.s

/-- `SO2.unrotate` (so2.py L293-306). -/
def unrotate (a : SO2) (p : P2) : P2 := rotateFromCosSin p a.c (-a.s)

/-- `SO2.to_matrix` (so2.py L311-318). -/
def toMatrix (a : SO2) : Matrix (Fin 2) (Fin 2) ℝ := !![a.c, -a.s; a.s, a.c]

/-- The Jacobians of `SO2.rotate`: `(Jrot, Jpnt)` (so2.py L286-290). -/
def rotateJac (a : SO2) (p : P2) : Matrix (Fin 2) (Fin 1) ℝ × Matrix (Fin 2) (Fin 2) ℝ :=
  let ret := rotate a p
  (!![-ret.y; ret.x], a.toMatrix)

/-- The Jacobians of `SO2.unrotate` (so2.py L301-305). -/
def unrotateJac (a : SO2) (p : P2) : Matrix (Fin 2) (Fin 1) ℝ × Matrix (Fin 2) (Fin 2) ℝ :=
  let ret := unrotate a p
  (!![ret.y; -ret.x], a.toMatrixᵀ)

/-- `SO2.hat` (so2.py L320-325). -/
def hat (t : Fin 1 → ℝ) : Matrix (Fin 2) (Fin 2) ℝ := !![0, -t 0; t 0, 0]

/-- `theseus.constants.EPS`. -/
noncomputable def EPS : ℝ := 1 / 10 ^ 10

/-- `torch.allclose(a, b)` on scalars with the default tolerances `rtol = 1e-5`,
`atol = 1e-8`. -/
def Allclose (a b : ℝ) : Prop := |a - b| ≤ 1 / 10 ^ 8 + 1 / 10 ^ 5 * |b|

/-- `SO2._hat_matrix_check` (so2.py L147-164). -/
def HatCheck (m : Matrix (Fin 2) (Fin 2) ℝ) : Prop :=
  |m 0 0| < EPS ∧ |m 1 1| < EPS ∧ Allclose (m 0 1) (-m 1 0)

/-- `SO2.vee` (so2.py L327-330); `none` is the `ValueError`. -/
noncomputable def vee (m : Matrix (Fin 2) (Fin 2) ℝ) : Option (Fin 1 → ℝ) :=
  open Classical in if HatCheck m then some ![m 1 0] else none

/-- `SO2.normalize` (so2.py L187-204) with tolerance `eps`. -/
noncomputable def normalize (eps : ℝ) (a : SO2) : SO2 :=
  open Classical in
  let n := Real.sqrt (a.c ^ 2 + a.s ^ 2)
  if n < eps then ⟨1, 0⟩ else ⟨a.c / n, a.s / n⟩

/-- `SO2._check_tensor_impl` (so2.py L131-145). -/
def Check (eps : ℝ) (a : SO2) : Prop := |Real.sqrt (a.c ^ 2 + a.s ^ 2) - 1| ≤ eps

/-- `SO2._project_impl` (so2.py L119-129). -/
def project (a : SO2) (g : Fin 2 → ℝ) : Fin 1 → ℝ := ![g 0 * (-a.s) + g 1 * a.c]

/-- `SO2` as a `LieGroup`: the adjoint is 1 (so2.py L116-117) and the Jacobian of the logarithm
is 1 (so2.py L209-219). -/
noncomputable def ops : Ops 1 SO2 where
  compose := compose
  inverse := inverse
  exp v := exp (v 0)
  log a := ![a.log]
  adjoint _ := !![1]
  dlog _ := !![1]

end SO2

/-- An `SE2` tensor row: `[x, y, cos, sin]` (se2.py L19). -/
@[ext] structure SE2 where
  x : ℝ
  y : ℝ
  c : ℝ
  s : ℝ

namespace SE2

/-- `SE2.rotation` (se2.py L125-128). -/
def rot (a : SE2) : SO2 := ⟨a.c, a.s⟩

/-- `SE2.translation` / `SE2.xy` (se2.py L138-150). -/
def trans (a : SE2) : P2 := ⟨a.x, a.y⟩

/-- `SE2.update_from_rot_and_trans` (se2.py L157-163). -/
def mk' (r : SO2) (t : P2) : SE2 := ⟨t.x, t.y, r.c, r.s⟩

/-- `SE2._init_tensor` (se2.py L109-111). -/
def one : SE2 := ⟨0, 0, 1, 0⟩

/-- `SE2._compose_impl` (se2.py L318-332). -/
def compose (a b : SE2) : SE2 :=
  let r := SO2.rotate a.rot b.trans
  mk' (SO2.compose a.rot b.rot) ⟨a.x + r.x, a.y + r.y⟩

/-- `SE2._inverse_impl` (se2.py L334-339). -/
def inverse (a : SE2) : SE2 :=
  let ir := SO2.inverse a.rot
  mk' ir (SO2.rotate ir ⟨-a.x, -a.y⟩)

/-- The denominator `sine_nz` of `SE2._log_map_impl` (se2.py L173-177). -/
noncomputable def logDenominator (eps : ℝ) (a : SE2) : ℝ :=
  if |a.rot.log| < eps then 1 else a.s

/-- `half_theta_by_tan_half_theta` in `SE2._log_map_impl` (se2.py L178-182). -/
noncomputable def logH (eps : ℝ) (a : SE2) : ℝ :=
  let θ := a.rot.log
  1 / 2 * (1 + a.c) * (if |θ| < eps then 1 + a.s ^ 2 / 6 else θ / logDenominator eps a)

/-- `SE2._log_map_impl` (se2.py L165-228), the value. -/
noncomputable def log (eps : ℝ) (a : SE2) : Fin 3 → ℝ :=
  let θ := a.rot.log
  let h := logH eps a
  ![h * a.x + 1 / 2 * θ * a.y, h * a.y - 1 / 2 * θ * a.x, θ]

/-- `SE2._log_map_impl` (se2.py L189-226), the Jacobian; `deps` is `se2_d_near_zero`. -/
noncomputable def dlog (eps deps : ℝ) (a : SE2) : Matrix (Fin 3) (Fin 3) ℝ :=
  let u := log eps a
  let θ := a.rot.log
  let d := if |θ| < deps then 1 - θ ^ 2 / 12 else 1 / 2 * θ * a.s / (1 - a.c)
  let k := if |θ| < deps then θ / 12 + θ ^ 3 / 720 else 1 / θ - 1 / 2 * a.s / (1 - a.c)
  !![d, -(1 / 2 * θ), k * u 0 + 1 / 2 * u 1;
     1 / 2 * θ, d, k * u 1 - 1 / 2 * u 0;
     0, 0, 1]

/-- `sine_by_theta` of `SE2.exp_map` (se2.py L258). -/
noncomputable def expA (eps θ : ℝ) : ℝ := if |θ| < eps then 1 - θ ^ 2 / 6 else Real.sin θ / θ

/-- `cosine_minus_one_by_theta` of `SE2.exp_map` (se2.py L259-261). -/
noncomputable def expB (eps θ : ℝ) : ℝ :=
  if |θ| < eps then -θ / 2 + θ ^ 3 / 24 else (Real.cos θ - 1) / θ

/-- `SE2.exp_map` (se2.py L238-300), the value. -/
noncomputable def exp (eps : ℝ) (v : Fin 3 → ℝ) : SE2 :=
  let θ := v 2
  let a := expA eps θ
  let b := expB eps θ
  mk' (SO2.exp θ) ⟨a * v 0 + b * v 1, a * v 1 - b * v 0⟩

/-- `SE2.exp_map` (se2.py L273-298), the Jacobian. -/
noncomputable def dexp (eps : ℝ) (v : Fin 3 → ℝ) : Matrix (Fin 3) (Fin 3) ℝ :=
  let θ := v 2
  let a := expA eps θ
  let b := expB eps θ
  let p := if |θ| < eps then θ - θ ^ 3 / 120 else (θ - Real.sin θ) / θ ^ 2
  let q := if |θ| < eps then -1 / 2 + θ ^ 2 / 24 else (Real.cos θ - 1) / θ ^ 2
  !![a, -b, p * v 0 + q * v 1;
     b, a, p * v 1 - q * v 0;
     0, 0, 1]

/-- `SE2._adjoint_impl` (se2.py L309-316). -/
def adjoint (a : SE2) : Matrix (Fin 3) (Fin 3) ℝ :=
  !![a.c, -a.s, a.y; a.s, a.c, -a.x; 0, 0, 1]

/-- `SE2.to_matrix` (se2.py L367-372). -/
def toMatrix (a : SE2) : Matrix (Fin 3) (Fin 3) ℝ :=
  !![a.c, -a.s, a.x; a.s, a.c, a.y; 0, 0, 1]

/-- `SE2.hat` (se2.py L374-382). -/
def hat (v : Fin 3 → ℝ) : Matrix (Fin 3) (Fin 3) ℝ :=
  !![0, -v 2, v 0; v 2, 0, v 1; 0, 0, 0]

/-- The check at the head of `SE2.vee` (se2.py L386-392). -/
def HatCheck (m : Matrix (Fin 3) (Fin 3) ℝ) : Prop :=
  SO2.Allclose (m 0 1) (-m 1 0) ∧ |m 0 0| < SO2.EPS ∧ |m 1 1| < SO2.EPS ∧ |m 2 2| < SO2.EPS

/-- `SE2.vee` (se2.py L384-397); `none` is the `ValueError`. -/
noncomputable def vee (m : Matrix (Fin 3) (Fin 3) ℝ) : Option (Fin 3 → ℝ) :=
  open Classical in if HatCheck m then some ![m 0 2, m 1 2, m 1 0] else none

/-- `SE2.transform_to` (se2.py L399-432), the value. -/
def transformTo (a : SE2) (p : P2) : P2 :=
  SO2.rotateFromCosSin ⟨p.x - a.x, p.y - a.y⟩ a.c (-a.s)

/-- The Jacobians of `SE2.transform_to` (se2.py L416-430). -/
def transformToJac (a : SE2) (p : P2) : Matrix (Fin 2) (Fin 3) ℝ × Matrix (Fin 2) (Fin 2) ℝ :=
  let ret := transformTo a p
  (!![-1, 0, ret.y; 0, -1, -ret.x], !![a.c, a.s; -a.s, a.c])

/-- `SE2.transform_from` (se2.py L434-465), the value. -/
def transformFrom (a : SE2) (p : P2) : P2 :=
  let temp := SO2.rotateFromCosSin p a.c a.s
  ⟨temp.x + a.x, temp.y + a.y⟩

/-- The Jacobians of `SE2.transform_from` (se2.py L446-463). -/
def transformFromJac (a : SE2) (p : P2) : Matrix (Fin 2) (Fin 3) ℝ × Matrix (Fin 2) (Fin 2) ℝ :=
  let temp := SO2.rotateFromCosSin p a.c a.s
  (!![a.c, -a.s, -temp.y; a.s, a.c, temp.x], !![a.c, -a.s; a.s, a.c])

/-- The Jacobian of `SE2.xy` (se2.py L143-149). -/
def xyJac (a : SE2) : Matrix (Fin 2) (Fin 3) ℝ := !![a.c, -a.s, 0; a.s, a.c, 0]

/-- The Jacobian of `SE2.theta` (se2.py L130-136). -/
def thetaJac (_a : SE2) : Matrix (Fin 1) (Fin 3) ℝ := !![0, 0, 1]

/-- `SE2._project_impl` (se2.py L341-365). -/
def project (a : SE2) (g : Fin 4 → ℝ) : Fin 3 → ℝ :=
  ![g 0 * a.c + g 1 * a.s, g 0 * (-a.s) + g 1 * a.c, g 2 * (-a.s) + g 3 * a.c]

/-- `SE2` as a `LieGroup`. -/
noncomputable def ops (eps deps : ℝ) : Ops 3 SE2 where
  compose := compose
  inverse := inverse
  exp := exp eps
  log := log eps
  adjoint := adjoint
  dlog := dlog eps deps

end SE2

namespace Vec
variable {n : ℕ}

/-- `Vector` (and `Point2`, `Point3`) as a `LieGroup` (vector.py L180-257): composition is
addition, the inverse negation, `exp_map` and `log_map` copies, all Jacobians the identity. -/
def ops (n : ℕ) : Ops n (Fin n → ℝ) where
  compose a b := a + b
  inverse a := -a
  exp v := v
  log a := a
  adjoint _ := 1
  dlog _ := 1

/-- `Vector._retract_impl` (vector.py L177-178). -/
def retract (a δ : Fin n → ℝ) : Fin n → ℝ := a + δ

/-- `Vector._compose_jacobian` (vector.py L183-187). -/
def composeJac (_a _b : Fin n → ℝ) : Matrix (Fin n) (Fin n) ℝ × Matrix (Fin n) (Fin n) ℝ :=
  (1, 1)

end Vec
end Verif.Geometry
