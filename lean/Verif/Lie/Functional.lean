import Verif.Lie.Tensor
import Verif.Geometry.Backward
import Verif.Geometry.SpatialChecks

/-!
# Model of torchlie's functional interface (`torchlie/torchlie/functional/lie_group.py`)

The factories that build `SO3.exp`, `SO3.jexp`, … from the functions of `so3_impl.py` and `se3_impl.py`,
and the methods of `LieTensor` and `ltype` that return Jacobians (`lie_tensor.py`, `types.py`).

Simplifications: one batch element with exact real entries; the shapes of the arguments are right (the
types say so; shapes are the subject of C62 and C87); the result of an operator is its value together with
the gradient function that autograd will use for it (`Node`).
-/

namespace Verif.Lie.Fn
open Verif.Geometry Matrix Verif.Lie.Tensor

/-- The exceptions. -/
inductive Exc where
  | value | notImplemented | attribute | index
deriving DecidableEq, Repr

/-- The settings in force: the thresholds and `so3_matrix_eps`, `so3_quat_eps`, `so3_hat_eps`,
`se3_hat_eps`, `_allow_passthrough_ops` (global_params.py L20-34), whether checks are enabled
(check_contexts.py L11-22), and `torch.svd`. -/
structure Cfg where
  eps : Eps
  matEps : ℝ
  quatEps : ℝ
  hat3 : ℝ
  hat6 : ℝ
  checks : Bool
  pass : Bool
  svd : M3 → M3 × V3 × M3

/-- A tensor in the graph: its value and what autograd computes for the operator's arguments from the
gradient of the value. -/
structure Node (O I : Type) where
  val : O
  vjp : O → I

/-- The functions of a unary operator in its module: `_xxx_autograd_fn`, `_jxxx_autograd_fn` (or `None`) and
`_xxx_passthrough_fn` (or absent) (lie_group.py L139-142). -/
structure Unary (I O J : Type) where
  fn : I → Except Exc (Node O I)
  jfn : Option (I → Except Exc (List J × O))
  passFn : Option (I → O → J → Node O I)

/-- The functions of a binary operator (lie_group.py L208-209); the Jacobians for the two arguments have the
types `J₀` and `J₁`. -/
structure Binary (I₀ I₁ O J₀ J₁ : Type) where
  fn : I₀ → I₁ → Except Exc (Node O (I₀ × I₁))
  jfn : Option (I₀ → I₁ → Except Exc (List (J₀ ⊕ J₁) × O))

/-- The module attributes that the factories read (so3_impl.py L22, se3_impl.py L17). -/
def attrs : Lt → List (String × String)
  | .so3 => [("NAME", "SO3")]
  | .se3 => [("NAME", "SE3")]

/-- `module.attr`: `AttributeError` if there is no such attribute. -/
def getattr (g : Lt) (a : String) : Except Exc String :=
  match (attrs g).lookup a with
  | some s => .ok s
  | none => .error .attribute

/-- The function `op` of `UnaryOperatorFactory` (lie_group.py L144-156): the list passed as `jacobians=` after
the call, and the result. -/
def unaryOp {I O J : Type} (c : Cfg) (g : Lt) (m : Unary I O J) (x : I) (jacobians : Option (List J)) :
    Option (List J) × Except Exc (Node O I) :=
  match jacobians with
  | none => (none, m.fn x)                                                            -- 156
  | some l =>
    match getattr g "NAME" with                                                       -- 149
    | .error e => (some l, .error e)
    | .ok _ =>
      match m.jfn with
      | none => (some l, .error .notImplemented)                                      -- 128-133
      | some j =>
        if l.length ≠ 0 then (some l, .error .value)                                  -- 150; utils.py L11-13
        else
          match j x with                                                              -- 151
          | .error e => (some l, .error e)
          | .ok ([], _) => (some l, .error .index)                                    -- 152
          | .ok (j0 :: _, ret) =>
            match c.pass, m.passFn with                                               -- 153-154
            | true, some p => (some (l ++ [j0]), .ok (p x ret j0))
            | _, _ => (some (l ++ [j0]), m.fn x)                                      -- 156

/-- The function `jop` of `UnaryOperatorFactory` (lie_group.py L158-162). The arguments of
`_check_jacobians_supported` are evaluated first, and one is `module.name`. -/
def unaryJop {I O J : Type} (g : Lt) (m : Unary I O J) (x : I) : Except Exc (List J × O) :=
  match getattr g "name" with                                                         -- 159
  | .error e => .error e
  | .ok _ =>
    match m.jfn with
    | none => .error .notImplemented
    | some j => j x                                                                   -- 161

/-- The function `op` of `BinaryOperatorFactory` (lie_group.py L211-223). -/
def binaryOp {I₀ I₁ O J₀ J₁ : Type} (g : Lt) (m : Binary I₀ I₁ O J₀ J₁) (x : I₀) (y : I₁)
    (jacobians : Option (List (J₀ ⊕ J₁))) : Option (List (J₀ ⊕ J₁)) × Except Exc (Node O (I₀ × I₁)) :=
  match jacobians with
  | none => (none, m.fn x y)                                                          -- 223
  | some l =>
    match getattr g "NAME" with                                                       -- 219
    | .error e => (some l, .error e)
    | .ok _ =>
      match m.jfn with
      | none => (some l, .error .notImplemented)
      | some j =>
        if l.length ≠ 0 then (some l, .error .value)                                  -- 220
        else
          match j x y with                                                            -- 221
          | .error e => (some l, .error e)
          | .ok (js, _) => (some (js.foldl (fun l j => l ++ [j]) l), m.fn x y)        -- 222-223

/-- The function `jop` of `BinaryOperatorFactory` (lie_group.py L225-232). -/
def binaryJop {I₀ I₁ O J₀ J₁ : Type} (g : Lt) (m : Binary I₀ I₁ O J₀ J₁) (x : I₀) (y : I₁) :
    Except Exc (List (J₀ ⊕ J₁) × O) :=
  match getattr g "NAME" with                                                         -- 229-231
  | .error e => .error e
  | .ok _ =>
    match m.jfn with
    | none => .error .notImplemented
    | some j => j x y

/-! ### The two modules -/

/-- A group tensor: 3x3 for `SO3`, `[R | t]` for `SE3`. -/
abbrev Data : Lt → Type
  | .so3 => M3
  | .se3 => SE3

/-- The dimension of the tangent space (`DIM`). -/
abbrev dim : Lt → ℕ
  | .so3 => 3
  | .se3 => 6

/-- A tangent vector. -/
abbrev Tan (g : Lt) : Type := Fin (dim g) → ℝ

/-- A Jacobian with respect to a group element or a tangent vector. -/
abbrev Jac (g : Lt) (k : ℕ) : Type := Matrix (Fin k) (Fin (dim g)) ℝ

/-- The result of `hat`: 3x3 for `SO3`, 4x4 for `SE3`. -/
abbrev HatT : Lt → Type
  | .so3 => M3
  | .se3 => Matrix (Fin 4) (Fin 4) ℝ

/-- `check_group_tensor` (so3_impl.py L30-48, se3_impl.py L24-32). -/
noncomputable def checkGroup (c : Cfg) : (g : Lt) → Data g → Except Exc Unit
  | .so3, R => open Classical in if c.checks = true ∧ ¬ SO3.GroupCheck c.matEps R then .error .value else .ok ()
  | .se3, x => open Classical in if c.checks = true ∧ ¬ SO3.GroupCheck c.matEps x.R then .error .value else .ok ()

/-- `check_hat_tensor` (so3_impl.py L68-82, se3_impl.py L51-64). -/
noncomputable def checkHat (c : Cfg) : (g : Lt) → HatT g → Except Exc Unit
  | .so3, m => open Classical in if c.checks = true ∧ ¬ SO3.HatCheck c.hat3 m then .error .value else .ok ()
  | .se3, m => open Classical in if c.checks = true ∧ ¬ SE3.HatCheck c.hat6 c.hat3 m then .error .value else .ok ()

/-- `check_unit_quaternion` (so3_impl.py L86-101) on one element. -/
noncomputable def checkQuat (c : Cfg) (q : Fin 4 → ℝ) : Except Exc Unit :=
  open Classical in
  if c.checks = true ∧ ¬ |SO3.quatNorm q - 1| < c.quatEps then .error .value else .ok ()

/-- Run a check, then continue. -/
def guarded {α : Type} (k : Except Exc Unit) (r : Except Exc α) : Except Exc α :=
  match k with
  | .error e => .error e
  | .ok _ => r

/-- `exp` (so3_impl.py L262-355, se3_impl.py L218-348). -/
noncomputable def exp (c : Cfg) : (g : Lt) → Unary (Tan g) (Data g) (Jac g (dim g))
  | .so3 =>
    { fn := fun v => .ok ⟨SO3.exp c.eps.near v, SO3.expBackward c.eps.near v⟩
      jfn := some fun v => .ok ([SO3.jexp c.eps.near v], SO3.exp c.eps.near v)
      passFn := none }
  | .se3 =>
    { fn := fun v => .ok ⟨SE3.exp c.eps.near v, SE3.expBackward c.eps.near v⟩
      jfn := some fun v => .ok ([SE3.jexp c.eps.near v], SE3.exp c.eps.near v)
      passFn := none }

/-- `_log_backward` with the Jacobian as an argument (so3_impl.py L489-497, se3_impl.py L487-493). -/
noncomputable def logBackwardWith : (g : Lt) → Data g → Jac g (dim g) → Tan g → Data g
  | .so3, R, J, d => R * SO3.hat (((1 / 2 : ℝ) • J)ᵀ *ᵥ d)
  | .se3, x, J, d =>
    let j := Jᵀ *ᵥ d
    let l := SE3.lift (SE3.join (SE3.lin j) ((1 / 2 : ℝ) • SE3.ang j))
    ⟨x.R * l.R, x.R *ᵥ l.t⟩

/-- `log` (so3_impl.py L438-528, se3_impl.py L397-525); the only operator with a pass-through function
(so3_impl.py L517-528, se3_impl.py L514-525, lie_group.py L61-84). `Log.backward` calls `_jlog_impl` again
(so3_impl.py L511-514). -/
noncomputable def log (c : Cfg) : (g : Lt) → Unary (Data g) (Tan g) (Jac g (dim g))
  | .so3 =>
    { fn := fun R => guarded (checkGroup c .so3 R)
        (.ok ⟨SO3.log c.eps.near c.eps.npi R, SO3.logBackward c.eps.near c.eps.dnear c.eps.npi R⟩)
      jfn := some fun R => guarded (checkGroup c .so3 R)
        (.ok ([SO3.jlog c.eps.near c.eps.dnear c.eps.npi R], SO3.log c.eps.near c.eps.npi R))
      passFn := some fun R ret J => ⟨ret, logBackwardWith .so3 R J⟩ }
  | .se3 =>
    { fn := fun x => guarded (checkGroup c .se3 x)
        (.ok ⟨SE3.log c.eps.near c.eps.npi x, SE3.logBackward c.eps.near c.eps.dnear c.eps.npi x⟩)
      jfn := some fun x => guarded (checkGroup c .se3 x)
        (.ok ([SE3.jlog c.eps.near c.eps.dnear c.eps.npi x], SE3.log c.eps.near c.eps.npi x))
      passFn := some fun x ret J => ⟨ret, logBackwardWith .se3 x J⟩ }

/-- `inverse` (so3_impl.py L561-581, se3_impl.py L579-608) and `JInverseImplFactory` (lie_group.py L29-33). -/
noncomputable def inverse (c : Cfg) : (g : Lt) → Unary (Data g) (Data g) (Jac g (dim g))
  | .so3 =>
    { fn := fun R => guarded (checkGroup c .so3 R) (.ok ⟨(Rᵀ : M3), SO3.inverseBackward⟩)
      jfn := some fun R => guarded (checkGroup c .so3 R) (.ok ([(-R : M3)], (Rᵀ : M3)))
      passFn := none }
  | .se3 =>
    { fn := fun x => guarded (checkGroup c .se3 x) (.ok ⟨SE3.inverse x, SE3.inverseBackward x⟩)
      jfn := some fun x => guarded (checkGroup c .se3 x) (.ok ([-SE3.adjoint x], SE3.inverse x))
      passFn := none }

/-- The 3x3 blocks of a 6x6 gradient. -/
def blk (G : Matrix (Fin 6) (Fin 6) ℝ) (i j : Fin 4) : M3 :=
  Matrix.of fun a b => G ⟨(i + a) % 6, Nat.mod_lt _ (by norm_num)⟩ ⟨(j + b) % 6, Nat.mod_lt _ (by norm_num)⟩

/-- The operators without Jacobian: `_jxxx_autograd_fn = None` (so3_impl.py L555, L627, L663, L971, L1007,
L1218; se3_impl.py L572, L653, L697, L903, L944, L1104). -/
inductive NoJac where
  | adjoint | normalize | hat | vee | lift | project
deriving DecidableEq

/-- The type of the argument. -/
abbrev NoJac.In : Lt → NoJac → Type
  | g, .adjoint => Data g
  | g, .normalize => Data g
  | g, .hat => Tan g
  | g, .vee => HatT g
  | g, .lift => Tan g
  | g, .project => Data g

/-- The type of the result. -/
abbrev NoJac.Out : Lt → NoJac → Type
  | g, .adjoint => Jac g (dim g)
  | g, .normalize => Data g
  | g, .hat => HatT g
  | g, .vee => Tan g
  | g, .lift => Data g
  | g, .project => Tan g

/-- These operators: `adjoint` (so3_impl.py L534-555, se3_impl.py L531-572), `normalize` (so3_impl.py
L1133-1218, se3_impl.py L1064-1104), `hat` (so3_impl.py L587-627, se3_impl.py L614-653), `vee` (so3_impl.py
L633-663, se3_impl.py L657-697), `lift` (so3_impl.py L940-971, se3_impl.py L875-903) and `project` (so3_impl.py
L977-1007, se3_impl.py L909-944). -/
noncomputable def plain (c : Cfg) : (g : Lt) → (o : NoJac) → Unary (o.In g) (o.Out g) Empty
  | .so3, .adjoint =>
    { fn := fun R => guarded (checkGroup c .so3 R) (.ok ⟨R, SO3.adjointBackward⟩), jfn := none, passFn := none }
  | .se3, .adjoint =>
    { fn := fun x => guarded (checkGroup c .se3 x)
        (.ok ⟨SE3.adjoint x, fun G => SE3.adjointBackward x (blk G 0 0) (blk G 0 3) (blk G 3 3)⟩)
      jfn := none, passFn := none }
  | .so3, .normalize =>
    { fn := fun R => .ok ⟨SO3.normalizeOf (c.svd R).1 (c.svd R).2.2,
        SO3.normalizeBackward (c.svd R).1 (c.svd R).2.1 (c.svd R).2.2⟩
      jfn := none, passFn := none }
  | .se3, .normalize =>
    { fn := fun x => .ok ⟨SE3.normalizeOf (c.svd x.R).1 (c.svd x.R).2.2 x,
        fun G => ⟨SO3.normalizeBackward (c.svd x.R).1 (c.svd x.R).2.1 (c.svd x.R).2.2 G.R, G.t⟩⟩
      jfn := none, passFn := none }
  | .so3, .hat => { fn := fun v => .ok ⟨SO3.hat v, SO3.hatBackward⟩, jfn := none, passFn := none }
  | .se3, .hat => { fn := fun v => .ok ⟨SE3.hat v, SE3.hatBackward⟩, jfn := none, passFn := none }
  | .so3, .vee =>
    { fn := fun m => guarded (checkHat c .so3 m) (.ok ⟨SO3.veeRaw m, SO3.veeBackward⟩), jfn := none, passFn := none }
  | .se3, .vee =>
    { fn := fun m => guarded (checkHat c .se3 m) (.ok ⟨SE3.veeRaw m, SE3.veeBackward⟩), jfn := none, passFn := none }
  | .so3, .lift => { fn := fun v => .ok ⟨SO3.hat v, SO3.hatBackward⟩, jfn := none, passFn := none }
  | .se3, .lift => { fn := fun v => .ok ⟨SE3.lift v, SE3.project⟩, jfn := none, passFn := none }
  | .so3, .project => { fn := fun m => .ok ⟨SO3.project m, SO3.projectBackward⟩, jfn := none, passFn := none }
  | .se3, .project => { fn := fun m => .ok ⟨SE3.project m, SE3.lift⟩, jfn := none, passFn := none }

/-- `quaternion_to_rotation` (so3_impl.py L821-934); only `SO3` has it (lie_group.py L349-353). -/
noncomputable def quaternion (c : Cfg) : Unary (Fin 4 → ℝ) M3 (Matrix (Fin 3) (Fin 4) ℝ) where
  fn := fun q => guarded (checkQuat c q) (.ok ⟨SO3.ofQuaternion q, SO3.quaternionBackward q⟩)
  jfn := some fun q => guarded (checkQuat c q) (.ok ([SO3.jquaternion q], SO3.ofQuaternion q))
  passFn := none

/-- `compose` (so3_impl.py L669-711, se3_impl.py L703-751). `_jcompose_impl` of `SE3` calls the checked
`_inverse_autograd_fn` and `_adjoint_autograd_fn` (se3_impl.py L719-721). -/
noncomputable def compose (c : Cfg) : (g : Lt) →
    Binary (Data g) (Data g) (Data g) (Jac g (dim g)) (Jac g (dim g))
  | .so3 =>
    { fn := fun A B => guarded (checkGroup c .so3 A) (guarded (checkGroup c .so3 B)
        (.ok ⟨(A * B : M3), SO3.composeBackward A B⟩))
      jfn := some fun A B => guarded (checkGroup c .so3 A) (guarded (checkGroup c .so3 B)
        (.ok ([.inl (SO3.jcompose A B).1, .inr (SO3.jcompose A B).2], (A * B : M3)))) }
  | .se3 =>
    { fn := fun a b => guarded (checkGroup c .se3 a) (guarded (checkGroup c .se3 b)
        (.ok ⟨SE3.compose a b, SE3.composeBackward a b⟩))
      jfn := some fun a b => guarded (checkGroup c .se3 a) (guarded (checkGroup c .se3 b)
        (guarded (checkGroup c .se3 (SE3.inverse b))
          (.ok ([.inl (SE3.jcompose a b).1, .inr (SE3.jcompose a b).2], SE3.compose a b)))) }

/-- `transform` (so3_impl.py L717-763, se3_impl.py L757-807). -/
noncomputable def transform (c : Cfg) : (g : Lt) → Binary (Data g) V3 V3 (Jac g 3) M3
  | .so3 =>
    { fn := fun R p => guarded (checkGroup c .so3 R) (.ok ⟨SO3.transform R p, SO3.transformBackward R p⟩)
      jfn := some fun R p => guarded (checkGroup c .so3 R)
        (.ok ([.inl (SO3.jtransform R p).1, .inr (SO3.jtransform R p).2], SO3.transform R p)) }
  | .se3 =>
    { fn := fun x p => guarded (checkGroup c .se3 x) (.ok ⟨SE3.transform x p, SE3.transformBackward x p⟩)
      jfn := some fun x p => guarded (checkGroup c .se3 x)
        (.ok ([.inl (SE3.jtransform x p).1, .inr (SE3.jtransform x p).2], SE3.transform x p)) }

/-- `untransform` (so3_impl.py L769-815, se3_impl.py L813-870). -/
noncomputable def untransform (c : Cfg) : (g : Lt) → Binary (Data g) V3 V3 (Jac g 3) M3
  | .so3 =>
    { fn := fun R p => guarded (checkGroup c .so3 R) (.ok ⟨SO3.untransform R p, SO3.untransformBackward R p⟩)
      jfn := some fun R p => guarded (checkGroup c .so3 R)
        (.ok ([.inl (SO3.juntransform R p).1, .inr (SO3.juntransform R p).2], SO3.untransform R p)) }
  | .se3 =>
    { fn := fun x p => guarded (checkGroup c .se3 x) (.ok ⟨SE3.untransform x p, SE3.untransformBackward x p⟩)
      jfn := some fun x p => guarded (checkGroup c .se3 x)
        (.ok ([.inl (SE3.juntransform x p).1, .inr (SE3.juntransform x p).2], SE3.untransform x p)) }

/-! ### `LieTensor` and `ltype` -/

/-- `LieTensor.from_tensor` (lie_tensor.py L196-197, L468-474, L71-80): the constructor checks the data. -/
noncomputable def fromTensor (c : Cfg) (g : Lt) (r : Except Exc (Data g)) : Except Exc (Data g) :=
  match r with
  | .error e => .error e
  | .ok x => guarded (checkGroup c g x) (.ok x)

/-- The value of a result. -/
def valOf {O I : Type} : Except Exc (Node O I) → Except Exc O
  | .error e => .error e
  | .ok n => .ok n.val

/-- Pair the list of Jacobians with the result. -/
def withJacs {J O : Type} (l : Option (List J)) (r : Except Exc O) : Except Exc (List J × O) :=
  match r with
  | .error e => .error e
  | .ok x => .ok (l.getD [], x)

/-- `ltype.exp` (types.py L84-87). -/
noncomputable def ltExp (c : Cfg) (g : Lt) (v : Tan g) : Except Exc (Data g) :=
  fromTensor c g (valOf (unaryOp c g (exp c g) v none).2)

/-- `ltype.jexp` (types.py L89-92). -/
noncomputable def ltJexp (c : Cfg) (g : Lt) (v : Tan g) : Except Exc (List (Jac g (dim g)) × Data g) :=
  let r := unaryOp c g (exp c g) v (some [])
  withJacs r.1 (fromTensor c g (valOf r.2))

/-- `LieTensor.log` and `jlog` (lie_tensor.py L271-272, L301-314). -/
noncomputable def ltLog (c : Cfg) (g : Lt) (x : Data g) : Except Exc (Tan g) := valOf (unaryOp c g (log c g) x none).2
noncomputable def ltJlog (c : Cfg) (g : Lt) (x : Data g) : Except Exc (List (Jac g (dim g)) × Tan g) :=
  let r := unaryOp c g (log c g) x (some [])
  withJacs r.1 (valOf r.2)

/-- `LieTensor.inv` and `jinv` (lie_tensor.py L277-278, L301-311, L316-317). -/
noncomputable def ltInv (c : Cfg) (g : Lt) (x : Data g) : Except Exc (Data g) :=
  fromTensor c g (valOf (unaryOp c g (inverse c g) x none).2)
noncomputable def ltJinv (c : Cfg) (g : Lt) (x : Data g) : Except Exc (List (Jac g (dim g)) × Data g) :=
  let r := unaryOp c g (inverse c g) x (some [])
  withJacs r.1 (fromTensor c g (valOf r.2))

/-- `LieTensor.compose` and `jcompose` for two tensors of the same type (lie_tensor.py L280-284, L319-325); for
different types see C87. -/
noncomputable def ltCompose (c : Cfg) (g : Lt) (x y : Data g) : Except Exc (Data g) :=
  fromTensor c g (valOf (binaryOp g (compose c g) x y none).2)
noncomputable def ltJcompose (c : Cfg) (g : Lt) (x y : Data g) :
    Except Exc (List (Jac g (dim g) ⊕ Jac g (dim g)) × Data g) :=
  let r := binaryOp g (compose c g) x y (some [])
  withJacs r.1 (fromTensor c g (valOf r.2))

/-- `LieTensor.transform` and `jtransform` (lie_tensor.py L286-287, L327-330). -/
noncomputable def ltTransform (c : Cfg) (g : Lt) (x : Data g) (p : V3) : Except Exc V3 :=
  valOf (binaryOp g (transform c g) x p none).2
noncomputable def ltJtransform (c : Cfg) (g : Lt) (x : Data g) (p : V3) : Except Exc (List (Jac g 3 ⊕ M3) × V3) :=
  let r := binaryOp g (transform c g) x p (some [])
  withJacs r.1 (valOf r.2)

/-- `LieTensor.untransform` and `juntransform` (lie_tensor.py L289-290, L332-335). -/
noncomputable def ltUntransform (c : Cfg) (g : Lt) (x : Data g) (p : V3) : Except Exc V3 :=
  valOf (binaryOp g (untransform c g) x p none).2
noncomputable def ltJuntransform (c : Cfg) (g : Lt) (x : Data g) (p : V3) : Except Exc (List (Jac g 3 ⊕ M3) × V3) :=
  let r := binaryOp g (untransform c g) x p (some [])
  withJacs r.1 (valOf r.2)

end Verif.Lie.Fn
