import Verif.Geometry.SpatialJac
import Verif.Geometry.SpatialChecks

/-!
# The custom backward passes of torchlie

Models of the `backward` methods of the `torch.autograd.Function`s in `so3_impl.py` and
`se3_impl.py`, one batch element at a time (the extra operand dimensions of `left_act` and
`left_project` are a finite index type).

The specification is the chain rule: for incoming gradient `G` (of the shape of the output `f x`),
the returned gradient `B` (of the shape of the input) must satisfy
`d/dt ⟨G, f (x t)⟩ = ⟨B, x' ⟩` along every curve `x` through the input.  For functions of rotation
matrices defined by a formula that makes sense for all matrices the curves range over all matrices;
for `log` they range over the curves in the group.
-/

namespace Verif.Geometry
open Matrix

/-! ## Specification -/

/-- The inner products of two matrices, two vectors and two 3x4 matrices `[R | t]`. -/
def ip {m k : ℕ} (A B : Matrix (Fin m) (Fin k) ℝ) : ℝ := ∑ i, ∑ j, A i j * B i j
def vip {m : ℕ} (u v : Fin m → ℝ) : ℝ := ∑ i, u i * v i
def sip (a b : SE3) : ℝ := ip a.R b.R + vip a.t b.t

/-- Derivative of a curve of 3x4 matrices. -/
def SE3.Deriv (x : ℝ → SE3) (x' : SE3) : Prop :=
  MatDeriv (fun t => (x t).R) x'.R ∧ VecDeriv (fun t => (x t).t) x'.t

/-! ## The model -/

namespace SO3

/-- `Exp.backward` (so3_impl.py L336-351). -/
noncomputable def expBackward (eps : ℝ) (v : V3) (G : M3) : V3 :=
  (jexp eps v)ᵀ *ᵥ project ((exp eps v)ᵀ * G)

/-- `_log_backward` (so3_impl.py L489-497), called with the group element and `_jlog_impl`'s
Jacobian by `Log.backward` (L511-514) and by the pass-through wrapper (L517-522). -/
noncomputable def logBackward (eps deps epi : ℝ) (R : M3) (g : V3) : M3 :=
  R * hat (((1 / 2 : ℝ) • jlog eps deps epi R)ᵀ *ᵥ g)

/-- `Adjoint.backward` (so3_impl.py L549-551). -/
def adjointBackward (G : M3) : M3 := G

/-- `Inverse.backward` (so3_impl.py L575-577). -/
def inverseBackward (G : M3) : M3 := Gᵀ

/-- `Hat.backward` (so3_impl.py L613-623); `Lift.backward` (L963-966) calls `project`, the same. -/
def hatBackward (G : M3) : V3 := ![G 2 1 - G 1 2, G 0 2 - G 2 0, G 1 0 - G 0 1]

/-- `Vee.backward` (so3_impl.py L656-659). -/
noncomputable def veeBackward (g : V3) : M3 := (1 / 2 : ℝ) • hat g

/-- `Compose.backward` (so3_impl.py L700-706). -/
def composeBackward (A B G : M3) : M3 × M3 := (G * Bᵀ, Aᵀ * G)

/-- `TransformFrom.backward` (so3_impl.py L749-757). -/
def transformBackward (R : M3) (p g : V3) : M3 × V3 := (outer3 g p, Rᵀ *ᵥ g)

/-- `Untransform.backward` (so3_impl.py L801-809). -/
def untransformBackward (R : M3) (p g : V3) : M3 × V3 := (outer3 p g, R *ᵥ g)

/-- `QuaternionToRotation.backward` (so3_impl.py L915-930). -/
noncomputable def quaternionBackward (q : Fin 4 → ℝ) (G : M3) : Fin 4 → ℝ :=
  (jquaternion q)ᵀ *ᵥ project ((ofQuaternion q)ᵀ * G)

/-- `Project.backward` (so3_impl.py L999-1002). -/
def projectBackward (g : V3) : M3 := hat g

/-- `_left_act_impl` (so3_impl.py L1012-1027) and `_left_act_backward_helper` (L1030-1045): one
group element acts on tensors indexed by `ι` (the `dim_out` extra dimensions). -/
def leftAct {ι : Type} {k : ℕ} (R : M3) (T : ι → Matrix (Fin 3) (Fin k) ℝ) :
    ι → Matrix (Fin 3) (Fin k) ℝ := fun i => R * T i
def leftActBackward {ι : Type} [Fintype ι] {k : ℕ} (R : M3) (T G : ι → Matrix (Fin 3) (Fin k) ℝ) :
    M3 × (ι → Matrix (Fin 3) (Fin k) ℝ) := (∑ i, G i * (T i)ᵀ, fun i => Rᵀ * G i)

/-- `_left_project_impl` (lie_group.py L36-48) and its backward (so3_impl.py L1086-1121). -/
def leftProject {ι : Type} (R : M3) (T : ι → M3) : ι → V3 := fun i => project (leftAct Rᵀ T i)
def leftProjectBackward {ι : Type} [Fintype ι] (R : M3) (T : ι → M3) (g : ι → V3) :
    M3 × (ι → M3) :=
  let b := leftActBackward Rᵀ T (fun i => hat (g i))
  (b.1ᵀ, b.2)

/-- `F` of `_normalize_backward_helper` (so3_impl.py L1166-1171): where the difference is zero it
is replaced by infinity, whose inverse is 0. -/
noncomputable def normF (s : V3) : M3 := Matrix.of fun i j =>
  if s j ^ 2 - s i ^ 2 = 0 then 0 else (s j ^ 2 - s i ^ 2)⁻¹

/-- `_skew_symm` (so3_impl.py L1154-1155). -/
def skewSymm (M : M3) : M3 := M - Mᵀ

/-- `torch.cat((m[..., :2], m[..., 2:] @ sign), dim=-1)` (so3_impl.py L1160-1165). -/
def signLast (M : M3) (sign : ℝ) : M3 := Matrix.of fun i j => if j = 2 then M i j * sign else M i j

/-- `_normalize_backward_helper` (so3_impl.py L1147-1190), with the `sign` computed in the forward
pass (L1137). -/
noncomputable def normalizeBackward (u : M3) (s : V3) (v : M3) (G : M3) : M3 :=
  let sign := u.det * v.det
  let gradU := G * signLast v sign
  let gradV := Gᵀ * signLast u sign
  let uTerm := u * (Matrix.of fun i j => normF s i j * skewSymm (uᵀ * gradU) i j)
  let uTerm : M3 := (Matrix.of fun i j => uTerm i j * s j) * vᵀ
  let vTerm := (Matrix.of fun i j => normF s i j * skewSymm (vᵀ * gradV) i j) * vᵀ
  let vTerm : M3 := u * (Matrix.of fun i j => s i * vTerm i j)
  uTerm + vTerm

/-- `_sine_axis_fn` (so3_impl.py L366-384), the two paths with `_faster_log_maps`: on CUDA the upper
triangle of `(Gᵀ - G)/2` is gathered at `(1,2), (0,2), (0,1)` and the middle entry negated. -/
noncomputable def sineAxisCuda (R : M3) : V3 :=
  let m : M3 := (1 / 2 : ℝ) • (Rᵀ - R)
  ![m 1 2, -1 * m 0 2, m 0 1]
noncomputable def sineAxisFast (R : M3) : V3 :=
  fun i => (![R 2 1 - R 1 2, R 0 2 - R 2 0, R 1 0 - R 0 1] : V3) i * (1 / 2)

end SO3

namespace SE3

/-- `_project_impl` (se3_impl.py L909-921) and `_lift_impl` (L875-881). -/
def project (m : SE3) : Fin 6 → ℝ := join m.t (SO3.project m.R)
def lift (v : Fin 6 → ℝ) : SE3 := ⟨SO3.hat (ang v), lin v⟩

/-- `Exp.backward` (se3_impl.py L325-344). -/
noncomputable def expBackward (eps : ℝ) (v : Fin 6 → ℝ) (G : SE3) : Fin 6 → ℝ :=
  let g := exp eps v
  (jexp eps v)ᵀ *ᵥ project ⟨g.Rᵀ * G.R, g.Rᵀ *ᵥ G.t⟩

/-- `_log_backward` (se3_impl.py L487-493). -/
noncomputable def logBackward (eps deps epi : ℝ) (g : SE3) (d : Fin 6 → ℝ) : SE3 :=
  let j := (jlog eps deps epi g)ᵀ *ᵥ d
  let l := lift (join (lin j) ((1 / 2 : ℝ) • ang j))
  ⟨g.R * l.R, g.R *ᵥ l.t⟩

/-- `Adjoint.backward` (se3_impl.py L553-567), the incoming gradient by blocks `[A B; C D]`. -/
def adjointBackward (g : SE3) (A B D : M3) : SE3 :=
  ⟨A + D - SO3.hat g.t * B, SO3.project (B * g.Rᵀ)⟩

/-- `Inverse.backward` (se3_impl.py L597-604). -/
def inverseBackward (g G : SE3) : SE3 := ⟨G.Rᵀ - outer3 g.t G.t, -g.R *ᵥ G.t⟩

/-- `Hat.backward` (se3_impl.py L636-648). -/
def hatBackward (G : Matrix (Fin 4) (Fin 4) ℝ) : Fin 6 → ℝ :=
  ![G 0 3, G 1 3, G 2 3, G 2 1 - G 1 2, G 0 2 - G 2 0, G 1 0 - G 0 1]

/-- `Vee.backward` (se3_impl.py L684-691). -/
noncomputable def veeBackward (g : Fin 6 → ℝ) : Matrix (Fin 4) (Fin 4) ℝ :=
  hom ((1 / 2 : ℝ) • SO3.hat (ang g)) (lin g) 0

/-- `Compose.backward` (se3_impl.py L739-746): `grad_output @ group1ᵀ` is `G.R Rᵀ + G.t tᵀ`. -/
def composeBackward (a b G : SE3) : SE3 × SE3 :=
  (⟨G.R * b.Rᵀ + outer3 G.t b.t, G.t⟩, ⟨a.Rᵀ * G.R, a.Rᵀ *ᵥ G.t⟩)

/-- `TransformFrom.backward` (se3_impl.py L793-803). -/
def transformBackward (g : SE3) (p d : V3) : SE3 × V3 := (⟨outer3 d p, d⟩, g.Rᵀ *ᵥ d)

/-- `Untransform.backward` (se3_impl.py L852-866). -/
def untransformBackward (g : SE3) (p d : V3) : SE3 × V3 :=
  (⟨outer3 (p - g.t) d, -(g.R *ᵥ d)⟩, g.R *ᵥ d)

/-- `_left_act_impl` (se3_impl.py L947-955) acts with the rotation only; its backward (L958-968)
pads the gradient with a zero translation. -/
def leftAct {ι : Type} {k : ℕ} (g : SE3) (T : ι → Matrix (Fin 3) (Fin k) ℝ) :
    ι → Matrix (Fin 3) (Fin k) ℝ := SO3.leftAct g.R T
def leftActBackward {ι : Type} [Fintype ι] {k : ℕ} (g : SE3) (T G : ι → Matrix (Fin 3) (Fin k) ℝ) :
    SE3 × (ι → Matrix (Fin 3) (Fin k) ℝ) :=
  let b := SO3.leftActBackward g.R T G
  (⟨b.1, 0⟩, b.2)

/-- `_left_project_impl` (lie_group.py L36-48) for `SE3`, on 3x4 tensors `[R | t]`, and its
backward (se3_impl.py L1010-1052). -/
def leftProject {ι : Type} (g : SE3) (T : ι → SE3) : ι → Fin 6 → ℝ :=
  fun i => project ⟨(inverse g).R * (T i).R, (inverse g).R *ᵥ (T i).t⟩
def leftProjectBackward {ι : Type} [Fintype ι] (g : SE3) (T : ι → SE3) (d : ι → Fin 6 → ℝ) :
    SE3 × (ι → SE3) :=
  let l := fun i => lift (d i)
  (⟨(∑ i, ((l i).R * (T i).Rᵀ + outer3 (l i).t (T i).t))ᵀ, 0⟩,
    fun i => ⟨g.R * (l i).R, g.R *ᵥ (l i).t⟩)

end SE3

/-! ## Adjunctions -/

theorem ip_comm {m k : ℕ} (A B : Matrix (Fin m) (Fin k) ℝ) : ip A B = ip B A := by
  simp only [ip, mul_comm]

theorem ip_add {m k : ℕ} (A B C : Matrix (Fin m) (Fin k) ℝ) : ip A (B + C) = ip A B + ip A C := by
  simp only [ip, Matrix.add_apply, mul_add, Finset.sum_add_distrib]

theorem ip_mul_left {m k l : ℕ} (G : Matrix (Fin m) (Fin l) ℝ) (A : Matrix (Fin m) (Fin k) ℝ)
    (B : Matrix (Fin k) (Fin l) ℝ) : ip G (A * B) = ip (G * Bᵀ) A := by
  simp only [ip, Matrix.mul_apply, Matrix.transpose_apply, Finset.mul_sum, Finset.sum_mul]
  refine Finset.sum_congr rfl fun i _ => ?_
  rw [Finset.sum_comm]
  exact Finset.sum_congr rfl fun j _ => Finset.sum_congr rfl fun x _ => by ring

theorem ip_mul_right {m k l : ℕ} (G : Matrix (Fin m) (Fin l) ℝ) (A : Matrix (Fin m) (Fin k) ℝ)
    (B : Matrix (Fin k) (Fin l) ℝ) : ip G (A * B) = ip (Aᵀ * G) B := by
  simp only [ip, Matrix.mul_apply, Matrix.transpose_apply, Finset.mul_sum, Finset.sum_mul]
  rw [Finset.sum_comm, Finset.sum_congr rfl fun j _ => Finset.sum_comm]
  rw [Finset.sum_comm]
  exact Finset.sum_congr rfl fun x _ => Finset.sum_congr rfl fun j _ =>
    Finset.sum_congr rfl fun i _ => by ring

theorem ip_transpose {m k : ℕ} (A : Matrix (Fin m) (Fin k) ℝ) (B : Matrix (Fin k) (Fin m) ℝ) :
    ip A Bᵀ = ip Aᵀ B := by
  simp only [ip, Matrix.transpose_apply]
  exact Finset.sum_comm

theorem vip_add {m : ℕ} (u v w : Fin m → ℝ) : vip u (v + w) = vip u v + vip u w := by
  simp only [vip, Pi.add_apply, mul_add, Finset.sum_add_distrib]

theorem vip_mulVec {m k : ℕ} (g : Fin m → ℝ) (A : Matrix (Fin m) (Fin k) ℝ) (x : Fin k → ℝ) :
    vip g (A *ᵥ x) = vip (Aᵀ *ᵥ g) x := by
  simp only [vip, Matrix.mulVec, dotProduct, Matrix.transpose_apply, Finset.mul_sum,
    Finset.sum_mul]
  rw [Finset.sum_comm]
  exact Finset.sum_congr rfl fun j _ => Finset.sum_congr rfl fun i _ => by ring

theorem vip_mulVec_mat (g : V3) (A : M3) (x : V3) : vip g (A *ᵥ x) = ip (outer3 g x) A := by
  simp only [vip, ip, Matrix.mulVec, dotProduct, outer3, Matrix.of_apply, Finset.mul_sum]
  exact Finset.sum_congr rfl fun j _ => Finset.sum_congr rfl fun i _ => by ring

theorem ip_hat (G : M3) (w : V3) : ip G (SO3.hat w) = vip (SO3.project G) w := by
  simp [ip, vip, SO3.hat, SO3.project, Fin.sum_univ_three]; ring

theorem vip_project (g : V3) (M : M3) : vip g (SO3.project M) = ip (SO3.hat g) M := by
  rw [ip_comm, ip_hat]; simp only [vip, mul_comm]

theorem ip_hat_hat (u w : V3) : ip (SO3.hat u) (SO3.hat w) = 2 * vip u w := by
  simp [ip, vip, SO3.hat, Fin.sum_univ_three]; ring

theorem vip_join (u w : V3) (x : Fin 6 → ℝ) :
    vip (SE3.join u w) x = vip u (SE3.lin x) + vip w (SE3.ang x) := by
  simp [vip, SE3.join, SE3.lin, SE3.ang, Fin.sum_univ_succ]; ring

theorem vip_split (x y : Fin 6 → ℝ) :
    vip x y = vip (SE3.lin x) (SE3.lin y) + vip (SE3.ang x) (SE3.ang y) := by
  simp [vip, SE3.lin, SE3.ang, Fin.sum_univ_succ]; ring

/-! ## Derivatives of inner products -/

theorem ip_deriv {m k : ℕ} {F : ℝ → Matrix (Fin m) (Fin k) ℝ} {F'} (h : MatDeriv F F')
    (G : Matrix (Fin m) (Fin k) ℝ) : HasDerivAt (fun t => ip G (F t)) (ip G F') 0 := by
  unfold ip
  exact HasDerivAt.fun_sum fun i _ => HasDerivAt.fun_sum fun j _ => (h i j).const_mul _

theorem vip_deriv {m : ℕ} {F : ℝ → Fin m → ℝ} {F'} (h : VecDeriv F F') (g : Fin m → ℝ) :
    HasDerivAt (fun t => vip g (F t)) (vip g F') 0 := by
  unfold vip
  exact HasDerivAt.fun_sum fun i _ => (h i).const_mul _

theorem sip_deriv {x : ℝ → SE3} {x'} (h : SE3.Deriv x x') (G : SE3) :
    HasDerivAt (fun t => sip G (x t)) (sip G x') 0 :=
  (ip_deriv h.1 G.R).fun_add (vip_deriv h.2 G.t)

end Verif.Geometry
