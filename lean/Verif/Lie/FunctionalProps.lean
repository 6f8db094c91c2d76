import Verif.Lie.Functional
import Verif.Geometry.SpatialJac

/-!
# Jacobians requested from torchlie's functional interface and from LieTensors (C93)
-/

namespace Verif.Lie.Fn
open Verif.Geometry Matrix Verif.Lie.Tensor

/-! ### Specification -/

/-- What passing `jacobians=l` to an operator with `n` arguments has to do, compared with the plain call:
a list that is not empty is refused and kept; otherwise the result (value, gradient function or exception) is
that of the plain call, and the list holds one Jacobian per argument, or is still empty after an exception. -/
structure Contract {J R : Type} (n : ℕ) (plain : Except Exc R) (call : List J → Option (List J) × Except Exc R) :
    Prop where
  full : ∀ l, l ≠ [] → call l = (some l, .error .value)
  same : (call []).2 = plain
  fail : ∀ e, plain = .error e → (call []).1 = some []
  fills : ∀ r, plain = .ok r → ∃ js, (call []).1 = some js ∧ js.length = n

/-- The rotation part is a rotation matrix. -/
def Rot : (g : Lt) → Data g → Prop
  | .so3, R => Rᵀ * R = 1 ∧ R.det = 1
  | .se3, x => x.Rᵀ * x.R = 1 ∧ x.R.det = 1

/-- The size of the matrices of the group. -/
abbrev msize : Lt → ℕ
  | .so3 => 3
  | .se3 => 4

/-- Matrices and tangent vectors of the two groups. -/
noncomputable def emb : (g : Lt) → Embedding (dim g) (msize g) (Data g)
  | .so3 => SO3.emb
  | .se3 => SE3.emb

/-- Where the derivative of `exp` exists and the code does not use a truncated series. -/
def ExpRegular (c : Cfg) : (g : Lt) → Tan g → Prop
  | .so3, v => norm3 v ≠ c.eps.near
  | .se3, v => c.eps.near < norm3 ![v 3, v 4, v 5] ∨ (v 3 = 0 ∧ v 4 = 0 ∧ v 5 = 0)

/-- Likewise for `log`. -/
def LogRegular (c : Cfg) : (g : Lt) → Data g → Prop
  | .so3, R => (c.eps.near < SO3.theta R ∧ c.eps.dnear ≤ SO3.theta R ∧ SO3.BranchOk c.eps.npi R) ∨ R = 1
  | .se3, x => (c.eps.near < SO3.theta x.R ∧ c.eps.dnear ≤ SO3.theta x.R ∧ SO3.BranchOk c.eps.npi x.R) ∨ x.R = 1

/-! ### The contract -/

theorem unary_contract {I O J : Type} (c : Cfg) (g : Lt) (m : Unary I O J) (x : I)
    (h : ∃ j, m.jfn = some j ∧ ((∃ e, j x = .error e ∧ m.fn x = .error e) ∨
      (∃ J0 n, j x = .ok ([J0], n.val) ∧ m.fn x = .ok n ∧ ∀ p, m.passFn = some p → p x n.val J0 = n))) :
    Contract 1 (unaryOp c g m x none).2 fun l => unaryOp c g m x (some l) := by
  obtain ⟨j, hj, h⟩ := h
  have hg : ∃ s, getattr g "NAME" = .ok s := by cases g <;> exact ⟨_, rfl⟩
  obtain ⟨s, hg⟩ := hg
  have e0 : (unaryOp c g m x (none : Option (List J))).2 = m.fn x := rfl
  rw [e0]
  have e1 : ∀ l : List J, l ≠ [] → unaryOp c g m x (some l) = (some l, .error .value) := by
    intro l hl
    simp only [unaryOp, hg, hj]
    rw [if_pos (by simpa using hl)]
  rcases h with ⟨e, h1, h2⟩ | ⟨J0, n, h1, h2, h3⟩
  · have e2 : unaryOp c g m x (some []) = (some [], .error e) := by
      simp only [unaryOp, hg, hj, h1]
      rfl
    exact ⟨e1, by rw [e2, h2], fun e' _ => by rw [e2], fun r hr => by rw [h2] at hr; cases hr⟩
  · have e2 : unaryOp c g m x (some []) = (some [J0], .ok n) := by
      simp only [unaryOp, hg, hj, h1]
      rw [if_neg (by simp)]
      cases hc : c.pass <;> cases hp : m.passFn <;> simp [h2]
      exact h3 _ hp
    exact ⟨e1, by rw [e2, h2], fun e' he => by simp [h2] at he, fun r hr => ⟨[J0], by rw [e2], rfl⟩⟩

theorem binary_contract {I₀ I₁ O J₀ J₁ : Type} (g : Lt) (m : Binary I₀ I₁ O J₀ J₁) (x : I₀) (y : I₁)
    (h : ∃ j, m.jfn = some j ∧ ((∃ e, j x y = .error e ∧ m.fn x y = .error e) ∨
      (∃ a b n, j x y = .ok ([.inl a, .inr b], n.val) ∧ m.fn x y = .ok n))) :
    Contract 2 (binaryOp g m x y none).2 fun l => binaryOp g m x y (some l) := by
  obtain ⟨j, hj, h⟩ := h
  have hg : ∃ s, getattr g "NAME" = .ok s := by cases g <;> exact ⟨_, rfl⟩
  obtain ⟨s, hg⟩ := hg
  have e0 : (binaryOp g m x y (none : Option (List (J₀ ⊕ J₁)))).2 = m.fn x y := rfl
  rw [e0]
  have e1 : ∀ l : List (J₀ ⊕ J₁), l ≠ [] → binaryOp g m x y (some l) = (some l, .error .value) := by
    intro l hl
    simp only [binaryOp, hg, hj]
    rw [if_pos (by simpa using hl)]
  rcases h with ⟨e, h1, h2⟩ | ⟨a, b, n, h1, h2⟩
  · have e2 : binaryOp g m x y (some []) = (some [], .error e) := by
      simp only [binaryOp, hg, hj, h1]
      rfl
    exact ⟨e1, by rw [e2, h2], fun e' _ => by rw [e2], fun r hr => by rw [h2] at hr; cases hr⟩
  · have e2 : binaryOp g m x y (some []) = (some [.inl a, .inr b], .ok n) := by
      simp only [binaryOp, hg, hj, h1, h2]
      rfl
    exact ⟨e1, by rw [e2, h2], fun e' he => by simp [h2] at he, fun r hr => ⟨[.inl a, .inr b], by rw [e2], rfl⟩⟩

theorem guarded_ok {α : Type} (r : Except Exc α) : guarded (.ok ()) r = r := rfl

theorem checkGroup_cases (c : Cfg) (g : Lt) (x : Data g) :
    checkGroup c g x = .ok () ∨ checkGroup c g x = .error .value := by
  cases g <;> (simp only [checkGroup]; split <;> simp)

theorem checkQuat_cases (c : Cfg) (q : Fin 4 → ℝ) : checkQuat c q = .ok () ∨ checkQuat c q = .error .value := by
  simp only [checkQuat]; split <;> simp

theorem checkGroup_off {c : Cfg} (h : c.checks = false) (g : Lt) (x : Data g) : checkGroup c g x = .ok () := by
  cases g <;> simp [checkGroup, h]

theorem rot_check {c : Cfg} (h : 0 < c.matEps) {R : M3} (hR : Rᵀ * R = 1 ∧ R.det = 1) : SO3.GroupCheck c.matEps R := by
  have : R * Rᵀ = 1 := mul_eq_one_comm.1 hR.1
  refine ⟨fun i j => ?_, ?_⟩
  · rw [this, sub_self]; simpa using h
  · rw [hR.2, sub_self]; simpa using h

theorem checkGroup_rot {c : Cfg} (h : 0 < c.matEps) (g : Lt) (x : Data g) (hx : Rot g x) : checkGroup c g x = .ok () := by
  cases g with
  | so3 => exact if_neg fun hh => hh.2 (rot_check h hx)
  | se3 => exact if_neg fun hh => hh.2 (rot_check h hx)

theorem rot_inverse (x : SE3) (hx : Rot .se3 x) : Rot .se3 (SE3.inverse x) := by
  refine ⟨?_, ?_⟩
  · show (x.Rᵀ)ᵀ * x.Rᵀ = 1
    rw [transpose_transpose]; exact mul_eq_one_comm.1 hx.1
  · show (x.Rᵀ).det = 1
    rw [det_transpose]; exact hx.2

/-- Passing `jacobians=` to an operator that supports it, for `SO3` and `SE3`, with any settings, for any
data: see `Contract`. For `compose` of `SE3` with checks enabled the second argument has to be a rotation
(see `compose_jacobians_rejects`). -/
theorem jacobians_contract (c : Cfg) (g : Lt) :
    (∀ v, Contract 1 (unaryOp c g (exp c g) v none).2 fun l => unaryOp c g (exp c g) v (some l)) ∧
    (∀ x, Contract 1 (unaryOp c g (log c g) x none).2 fun l => unaryOp c g (log c g) x (some l)) ∧
    (∀ x, Contract 1 (unaryOp c g (inverse c g) x none).2 fun l => unaryOp c g (inverse c g) x (some l)) ∧
    (∀ q, Contract 1 (unaryOp c .so3 (quaternion c) q none).2 fun l => unaryOp c .so3 (quaternion c) q (some l)) ∧
    (∀ x y, g = .so3 ∨ c.checks = false ∨ (0 < c.matEps ∧ Rot g y) →
      Contract 2 (binaryOp g (compose c g) x y none).2 fun l => binaryOp g (compose c g) x y (some l)) ∧
    (∀ x p, Contract 2 (binaryOp g (transform c g) x p none).2 fun l => binaryOp g (transform c g) x p (some l)) ∧
    (∀ x p, Contract 2 (binaryOp g (untransform c g) x p none).2 fun l => binaryOp g (untransform c g) x p (some l)) := by
  refine ⟨fun v => unary_contract c g _ v ?_, fun x => unary_contract c g _ x ?_, fun x => unary_contract c g _ x ?_,
    fun q => unary_contract c _ _ q ?_, fun x y hy => binary_contract g _ x y ?_,
    fun x p => binary_contract g _ x p ?_, fun x p => binary_contract g _ x p ?_⟩
  · cases g
    · exact ⟨_, rfl, .inr ⟨_, _, rfl, rfl, fun p hp => by cases hp⟩⟩
    · exact ⟨_, rfl, .inr ⟨_, _, rfl, rfl, fun p hp => by cases hp⟩⟩
  · cases g
    all_goals
      refine ⟨_, rfl, ?_⟩
      rcases checkGroup_cases c _ x with h | h
      · right
        dsimp only [log]
        rw [h]
        refine ⟨_, _, rfl, rfl, fun p hp => ?_⟩
        cases hp
        rfl
      · left
        dsimp only [log]
        rw [h]
        exact ⟨_, rfl, rfl⟩
  · cases g
    all_goals
      refine ⟨_, rfl, ?_⟩
      rcases checkGroup_cases c _ x with h | h
      · right
        dsimp only [inverse]
        rw [h]
        exact ⟨_, _, rfl, rfl, fun p hp => by cases hp⟩
      · left
        dsimp only [inverse]
        rw [h]
        exact ⟨_, rfl, rfl⟩
  · refine ⟨_, rfl, ?_⟩
    rcases checkQuat_cases c q with h | h
    · right
      dsimp only [quaternion]
      rw [h]
      exact ⟨_, _, rfl, rfl, fun p hp => by cases hp⟩
    · left
      dsimp only [quaternion]
      rw [h]
      exact ⟨_, rfl, rfl⟩
  · cases g
    all_goals
      refine ⟨_, rfl, ?_⟩
      rcases checkGroup_cases c _ x with h | h <;> rcases checkGroup_cases c _ y with h' | h'
      · right
        dsimp only [compose]
        rw [h, h']
        first
          | (refine ⟨_, _, _, rfl, rfl⟩)
          | (have hi : checkGroup c .se3 (SE3.inverse y) = .ok () := by
               rcases hy with hy | hy | hy
               · cases hy
               · exact checkGroup_off hy _ _
               · exact checkGroup_rot hy.1 _ _ (rot_inverse y hy.2)
             rw [hi]
             exact ⟨_, _, _, rfl, rfl⟩)
      all_goals
        left
        dsimp only [compose]
        rw [h]
        try rw [h']
        exact ⟨_, rfl, rfl⟩
  · cases g
    all_goals
      refine ⟨_, rfl, ?_⟩
      rcases checkGroup_cases c _ x with h | h
      · right
        dsimp only [transform]
        rw [h]
        exact ⟨_, _, _, rfl, rfl⟩
      · left
        dsimp only [transform]
        rw [h]
        exact ⟨_, rfl, rfl⟩
  · cases g
    all_goals
      refine ⟨_, rfl, ?_⟩
      rcases checkGroup_cases c _ x with h | h
      · right
        dsimp only [untransform]
        rw [h]
        exact ⟨_, _, _, rfl, rfl⟩
      · left
        dsimp only [untransform]
        rw [h]
        exact ⟨_, rfl, rfl⟩

/-- The other operators refuse `jacobians=` whatever the list holds, and leave it as it is. -/
theorem jacobians_unsupported (c : Cfg) (g : Lt) (o : NoJac) (x : o.In g) (l : List Empty) :
    unaryOp c g (plain c g o) x (some l) = (some l, .error .notImplemented) := by
  cases g <;> cases o <;> rfl

/-! ### The Jacobians are derivatives -/

/-- For legal data the list passed as `jacobians=` receives the derivatives of the operator with respect to
its arguments, in the order of the arguments (in the sense of `Verif/Geometry/Spec.lean`). Missing: `exp` and
`log` where the code uses truncated series, and `log` where it divides by zero (C59, C60). -/
theorem jacobians_are_derivatives_partial (c : Cfg) (g : Lt) (hm : 0 < c.matEps) (hq : 0 < c.quatEps)
    (he : 0 < c.eps.near) (hd : 0 < c.eps.dnear) (hp0 : 0 ≤ c.eps.npi) (hp : c.eps.npi < 2) :
    (∃ f : Tan g → Data g, (∀ v, valOf (unaryOp c g (exp c g) v none).2 = .ok (f v)) ∧
      ∀ v, ExpRegular c g v → ∃ J, (unaryOp c g (exp c g) v (some [])).1 = some [J] ∧ (emb g).HasTangentJac f v J) ∧
    (∃ f : Data g → Tan g, (∀ x, Rot g x → valOf (unaryOp c g (log c g) x none).2 = .ok (f x)) ∧
      ∀ x, Rot g x → LogRegular c g x →
        ∃ J, (unaryOp c g (log c g) x (some [])).1 = some [J] ∧ (emb g).HasJac f x J) ∧
    (∃ f : Data g → Data g, (∀ x, Rot g x → valOf (unaryOp c g (inverse c g) x none).2 = .ok (f x)) ∧
      ∀ x, Rot g x → ∃ J, (unaryOp c g (inverse c g) x (some [])).1 = some [J] ∧ (emb g).HasGroupJac f x J) ∧
    (∃ f : (Fin 4 → ℝ) → M3, (∀ q, SO3.quatNorm q = 1 → valOf (unaryOp c .so3 (quaternion c) q none).2 = .ok (f q)) ∧
      ∀ q, SO3.quatNorm q = 1 → ∃ J, (unaryOp c .so3 (quaternion c) q (some [])).1 = some [J] ∧
        ∀ (x : ℝ → Fin 4 → ℝ) (x' : Fin 4 → ℝ), x 0 = q → VecDeriv x x' →
          MatDeriv (fun t => f (x t)) (f q * SO3.hat (J *ᵥ x'))) ∧
    (∃ f : Data g → Data g → Data g, (∀ x y, Rot g x → Rot g y → valOf (binaryOp g (compose c g) x y none).2 = .ok (f x y)) ∧
      ∀ x y, Rot g x → Rot g y → ∃ J₀ J₁, (binaryOp g (compose c g) x y (some [])).1 = some [.inl J₀, .inr J₁] ∧
        (emb g).HasGroupJac (fun a => f a y) x J₀ ∧ (emb g).HasGroupJac (f x) y J₁) ∧
    (∃ f : Data g → V3 → V3, (∀ x p, Rot g x → valOf (binaryOp g (transform c g) x p none).2 = .ok (f x p)) ∧
      ∀ x p, Rot g x → ∃ J₀ J₁, (binaryOp g (transform c g) x p (some [])).1 = some [.inl J₀, .inr J₁] ∧
        (emb g).HasJac (fun a => f a p) x J₀ ∧ HasVecJac (f x) p J₁) ∧
    (∃ f : Data g → V3 → V3, (∀ x p, Rot g x → valOf (binaryOp g (untransform c g) x p none).2 = .ok (f x p)) ∧
      ∀ x p, Rot g x → ∃ J₀ J₁, (binaryOp g (untransform c g) x p (some [])).1 = some [.inl J₀, .inr J₁] ∧
        (emb g).HasJac (fun a => f a p) x J₀ ∧ HasVecJac (f x) p J₁) := by
  have hgj := spatial_group_jac he c.eps.dnear c.eps.npi
  have hck : ∀ q, SO3.quatNorm q = 1 → checkQuat c q = .ok () := by
    intro q h
    refine if_neg fun hh => hh.2 ?_
    rw [h, sub_self, abs_zero]; exact hq
  refine ⟨?_, ?_, ?_, ?_, ?_, ?_, ?_⟩
  · cases g
    · exact ⟨SE3.exp c.eps.near, fun v => rfl, fun v hv => ⟨SE3.jexp c.eps.near v, by simp only [unaryOp, exp, getattr, attrs, List.lookup]; cases c.pass <;> rfl, se3_exp_jac_partial he hv⟩⟩
    · exact ⟨SO3.exp c.eps.near, fun v => rfl, fun v hv => ⟨SO3.jexp c.eps.near v, by simp only [unaryOp, exp, getattr, attrs, List.lookup]; cases c.pass <;> rfl, so3_exp_jac he hv⟩⟩
  · cases g
    · refine ⟨SE3.log c.eps.near c.eps.npi, fun x hx => ?_, fun x hx hl => ⟨SE3.jlog c.eps.near c.eps.dnear c.eps.npi x, ?_, se3_log_jac_partial he hd hp0 hp hx hl⟩⟩
      · simp only [unaryOp, log, checkGroup_rot hm _ _ hx, guarded_ok, valOf]
      · simp only [unaryOp, log, checkGroup_rot hm _ _ hx, guarded_ok, getattr, attrs, List.lookup]
        cases c.pass <;> rfl
    · refine ⟨SO3.log c.eps.near c.eps.npi, fun x hx => ?_, fun x hx hl => ⟨SO3.jlog c.eps.near c.eps.dnear c.eps.npi x, ?_, so3_log_jac_partial he hd hp0 hp hx hl⟩⟩
      · simp only [unaryOp, log, checkGroup_rot hm _ _ hx, guarded_ok, valOf]
      · simp only [unaryOp, log, checkGroup_rot hm _ _ hx, guarded_ok, getattr, attrs, List.lookup]
        cases c.pass <;> rfl
  · cases g
    · refine ⟨SE3.inverse, fun x hx => ?_, fun x hx => ⟨_, ?_, (hgj.2 x x hx hx).2.2.1⟩⟩
      · simp only [unaryOp, inverse, checkGroup_rot hm _ _ hx, guarded_ok, valOf]
      · simp only [unaryOp, inverse, checkGroup_rot hm _ _ hx, guarded_ok, getattr, attrs, List.lookup]
        cases c.pass <;> rfl
    · refine ⟨fun R => Rᵀ, fun x hx => ?_, fun x hx => ⟨_, ?_, (hgj.1 x x hx hx).2.2.1⟩⟩
      · simp only [unaryOp, inverse, checkGroup_rot hm _ _ hx, guarded_ok, valOf]
      · simp only [unaryOp, inverse, checkGroup_rot hm _ _ hx, guarded_ok, getattr, attrs, List.lookup]
        cases c.pass <;> rfl
  · refine ⟨SO3.ofQuaternion, fun q h => ?_, fun q h => ⟨SO3.jquaternion q, ?_, fun x x' hx0 hx => ?_⟩⟩
    · simp only [unaryOp, quaternion, hck q h, guarded_ok, valOf]
    · simp only [unaryOp, quaternion, hck q h, guarded_ok, getattr, attrs, List.lookup]
      cases c.pass <;> rfl
    · rw [← hx0]
      refine so3_quaternion_jac hx ?_
      rintro h0
      rw [hx0] at h0
      subst h0
      simp [SO3.quatNorm] at h
  · cases g
    · refine ⟨SE3.compose, fun x y hx hy => ?_, fun x y hx hy => ⟨_, _, ?_, (hgj.2 x y hx hy).1, (hgj.2 x y hx hy).2.1⟩⟩
      · simp only [binaryOp, compose, checkGroup_rot hm _ _ hx, checkGroup_rot hm _ _ hy, guarded_ok, valOf]
      · simp only [binaryOp, compose, checkGroup_rot hm _ _ hx, checkGroup_rot hm _ _ hy,
          checkGroup_rot hm .se3 _ (rot_inverse y hy), guarded_ok, getattr, attrs, List.lookup]
        rfl
    · refine ⟨fun A B : M3 => A * B, fun x y hx hy => ?_, fun x y hx hy => ⟨_, _, ?_, (hgj.1 x y hx hy).1, (hgj.1 x y hx hy).2.1⟩⟩
      · simp only [binaryOp, compose, checkGroup_rot hm _ _ hx, checkGroup_rot hm _ _ hy, guarded_ok, valOf]
      · simp only [binaryOp, compose, checkGroup_rot hm _ _ hx, checkGroup_rot hm _ _ hy, guarded_ok, getattr, attrs, List.lookup]
        rfl
  · cases g
    · refine ⟨SE3.transform, fun x p hx => ?_, fun x p hx => ⟨_, _, ?_, (se3_transform_jac x hx p).1, (se3_transform_jac x hx p).2.1⟩⟩
      · simp only [binaryOp, transform, checkGroup_rot hm _ _ hx, guarded_ok, valOf]
      · simp only [binaryOp, transform, checkGroup_rot hm _ _ hx, guarded_ok, getattr, attrs, List.lookup]
        rfl
    · refine ⟨SO3.transform, fun x p hx => ?_, fun x p hx => ⟨_, _, ?_, (so3_transform_jac x hx p).1, (so3_transform_jac x hx p).2.1⟩⟩
      · simp only [binaryOp, transform, checkGroup_rot hm _ _ hx, guarded_ok, valOf]
      · simp only [binaryOp, transform, checkGroup_rot hm _ _ hx, guarded_ok, getattr, attrs, List.lookup]
        rfl
  · cases g
    · refine ⟨SE3.untransform, fun x p hx => ?_, fun x p hx => ⟨_, _, ?_, (se3_transform_jac x hx p).2.2.1, (se3_transform_jac x hx p).2.2.2⟩⟩
      · simp only [binaryOp, untransform, checkGroup_rot hm _ _ hx, guarded_ok, valOf]
      · simp only [binaryOp, untransform, checkGroup_rot hm _ _ hx, guarded_ok, getattr, attrs, List.lookup]
        rfl
    · refine ⟨SO3.untransform, fun x p hx => ?_, fun x p hx => ⟨_, _, ?_, (so3_transform_jac x hx p).2.2.1, (so3_transform_jac x hx p).2.2.2⟩⟩
      · simp only [binaryOp, untransform, checkGroup_rot hm _ _ hx, guarded_ok, valOf]
      · simp only [binaryOp, untransform, checkGroup_rot hm _ _ hx, guarded_ok, getattr, attrs, List.lookup]
        rfl

/-! ### The functions `jexp`, `jlog`, `jinv`, `jcompose`, … -/

/-- `jcompose`, `jtransform` and `juntransform` return the Jacobians that `jacobians=` receives, with the value
of the plain call. -/
theorem jop_binary (c : Cfg) (g : Lt) :
    (∀ x y js r, binaryJop g (compose c g) x y = .ok (js, r) →
      (binaryOp g (compose c g) x y (some [])).1 = some js ∧ valOf (binaryOp g (compose c g) x y none).2 = .ok r) ∧
    (∀ x p js r, binaryJop g (transform c g) x p = .ok (js, r) →
      (binaryOp g (transform c g) x p (some [])).1 = some js ∧ valOf (binaryOp g (transform c g) x p none).2 = .ok r) ∧
    (∀ x p js r, binaryJop g (untransform c g) x p = .ok (js, r) →
      (binaryOp g (untransform c g) x p (some [])).1 = some js ∧
        valOf (binaryOp g (untransform c g) x p none).2 = .ok r) ∧
    (0 < c.matEps → ∀ x y p, Rot g x → Rot g y →
      (∃ js r, binaryJop g (compose c g) x y = .ok (js, r)) ∧ (∃ js r, binaryJop g (transform c g) x p = .ok (js, r)) ∧
        ∃ js r, binaryJop g (untransform c g) x p = .ok (js, r)) := by
  refine ⟨fun x y js r h => ?_, fun x p js r h => ?_, fun x p js r h => ?_, fun hm x y p hx hy => ?_⟩
  · cases g
    · rcases checkGroup_cases c _ x with h1 | h1 <;> rcases checkGroup_cases c _ y with h2 | h2 <;>
        rcases checkGroup_cases c .se3 (SE3.inverse y) with h3 | h3
      all_goals
        simp [binaryJop, compose, h1, h2, h3, guarded, getattr, attrs] at h
        try (obtain ⟨rfl, rfl⟩ := h; simp [binaryOp, compose, h1, h2, h3, guarded, getattr, attrs, valOf])
    · rcases checkGroup_cases c _ x with h1 | h1 <;> rcases checkGroup_cases c _ y with h2 | h2
      all_goals
        simp [binaryJop, compose, h1, h2, guarded, getattr, attrs] at h
        try (obtain ⟨rfl, rfl⟩ := h; simp [binaryOp, compose, h1, h2, guarded, getattr, attrs, valOf])
  · cases g
    all_goals
      rcases checkGroup_cases c _ x with h1 | h1
      all_goals
        simp [binaryJop, transform, h1, guarded, getattr, attrs] at h
        try (obtain ⟨rfl, rfl⟩ := h; simp [binaryOp, transform, h1, guarded, getattr, attrs, valOf])
  · cases g
    all_goals
      rcases checkGroup_cases c _ x with h1 | h1
      all_goals
        simp [binaryJop, untransform, h1, guarded, getattr, attrs] at h
        try (obtain ⟨rfl, rfl⟩ := h; simp [binaryOp, untransform, h1, guarded, getattr, attrs, valOf])
  · cases g
    · simp only [binaryJop, compose, transform, untransform, checkGroup_rot hm _ _ hx, checkGroup_rot hm _ _ hy,
        checkGroup_rot hm .se3 _ (rot_inverse y hy), guarded_ok, getattr, attrs, List.lookup]
      exact ⟨⟨_, _, rfl⟩, ⟨_, _, rfl⟩, ⟨_, _, rfl⟩⟩
    · simp only [binaryJop, compose, transform, untransform, checkGroup_rot hm _ _ hx, checkGroup_rot hm _ _ hy,
        guarded_ok, getattr, attrs, List.lookup]
      exact ⟨⟨_, _, rfl⟩, ⟨_, _, rfl⟩, ⟨_, _, rfl⟩⟩

/-- `jexp`, `jlog`, `jinv` and `jquaternion_to_rotation` of the functional interface raise `AttributeError` for
every argument: they read `module.name`, and the modules have `NAME`. -/
theorem jop_unary_raises (c : Cfg) (g : Lt) :
    (∀ v, unaryJop g (exp c g) v = .error .attribute) ∧ (∀ x, unaryJop g (log c g) x = .error .attribute) ∧
      (∀ x, unaryJop g (inverse c g) x = .error .attribute) ∧
        ∀ q, unaryJop .so3 (quaternion c) q = .error .attribute := by
  refine ⟨fun v => ?_, fun v => ?_, fun v => ?_, fun q => rfl⟩ <;> cases g <;> rfl

/-! ### The methods -/

/-- A method that returns Jacobians: it raises what the plain one raises, and otherwise returns the value of the
plain one and the `n` Jacobians `l`. -/
def Splits {J O : Type} (r : Except Exc (List J × O)) (plain : Except Exc O) (l : Option (List J)) (n : ℕ) : Prop :=
  match plain with
  | .error e => r = .error e
  | .ok x => ∃ js, r = .ok (js, x) ∧ l = some js ∧ js.length = n

theorem withJacs_splits {J O O' I : Type} {n : ℕ} {plain : Except Exc (Node O I)}
    {call : List J → Option (List J) × Except Exc (Node O I)} (h : Contract n plain call) (f : Except Exc O → Except Exc O')
    (hf : ∀ e, f (.error e) = .error e) :
    Splits (withJacs (call []).1 (f (valOf (call []).2))) (f (valOf plain)) (call []).1 n := by
  rw [h.same]
  unfold Splits
  cases hp : plain with
  | error e => simp only [valOf, hf, withJacs]
  | ok r =>
    obtain ⟨js, h1, h2⟩ := h.fills r hp
    cases hv : f (valOf (.ok r)) with
    | error e => simp only [withJacs]
    | ok x => exact ⟨js, by simp [withJacs, h1], h1, h2⟩

/-- `ltype.jexp`, `jlog`, `jinv`, `jcompose`, `jtransform` and `juntransform` of `LieTensor` return what the
method without `j` returns, or raise what it raises, together with the Jacobians that `jacobians=` of the
functional interface receives (which by `jacobians_are_derivatives_partial` are the derivatives). -/
theorem lietensor_jacobians (c : Cfg) (g : Lt) :
    (∀ v, Splits (ltJexp c g v) (ltExp c g v) (unaryOp c g (exp c g) v (some [])).1 1) ∧
    (∀ x, Splits (ltJlog c g x) (ltLog c g x) (unaryOp c g (log c g) x (some [])).1 1) ∧
    (∀ x, Splits (ltJinv c g x) (ltInv c g x) (unaryOp c g (inverse c g) x (some [])).1 1) ∧
    (∀ x y, g = .so3 ∨ c.checks = false ∨ (0 < c.matEps ∧ Rot g y) →
      Splits (ltJcompose c g x y) (ltCompose c g x y) (binaryOp g (compose c g) x y (some [])).1 2) ∧
    (∀ x p, Splits (ltJtransform c g x p) (ltTransform c g x p) (binaryOp g (transform c g) x p (some [])).1 2) ∧
    (∀ x p, Splits (ltJuntransform c g x p) (ltUntransform c g x p)
      (binaryOp g (untransform c g) x p (some [])).1 2) := by
  obtain ⟨h1, h2, h3, _, h5, h6, h7⟩ := jacobians_contract c g
  exact ⟨fun v => withJacs_splits (h1 v) (fromTensor c g) fun e => rfl, fun x => withJacs_splits (h2 x) id fun e => rfl,
    fun x => withJacs_splits (h3 x) (fromTensor c g) fun e => rfl,
    fun x y hy => withJacs_splits (h5 x y hy) (fromTensor c g) fun e => rfl,
    fun x p => withJacs_splits (h6 x p) id fun e => rfl, fun x p => withJacs_splits (h7 x p) id fun e => rfl⟩

/-! ### Witnesses -/

/-- A matrix that is a rotation up to the default tolerance (`so3_matrix_eps_float64`, global_params.py L58). -/
noncomputable def skewed : M3 :=
  let a : ℝ := 1 + 51 / 100000000
  !![3 / 5 * a, -(4 / 5) / a, 0; 4 / 5 * a, 3 / 5 / a, 0; 0, 0, 1]

theorem third (a b c : ℝ) : (![a, b, c] : Fin 3 → ℝ) 2 = c := rfl

theorem gram_apply (m : M3) (i j : Fin 3) :
    (m * mᵀ - 1) i j = m i 0 * m j 0 + m i 1 * m j 1 + m i 2 * m j 2 - if i = j then 1 else 0 := by
  rw [Matrix.sub_apply, Matrix.mul_apply, Fin.sum_univ_three, Matrix.one_apply]
  rfl

/-- With checks enabled and the default tolerance, there are `SE3` tensors that `compose` accepts but `compose`
with `jacobians=` rejects: the check looks at `R Rᵀ`, and the Jacobian checks the inverse as well. -/
theorem compose_jacobians_rejects :
    ∃ c : Cfg, c.checks = true ∧ c.matEps = 1 / 1000000 ∧ ∃ x y : Data .se3,
      (∃ r, (binaryOp .se3 (compose c .se3) x y none).2 = .ok r) ∧
        binaryOp .se3 (compose c .se3) x y (some []) = (some [], .error .value) := by
  let c : Cfg := ⟨⟨1 / 200, 1 / 100, 1 / 10000000⟩, 1 / 1000000, 1, 1, 1, true, false, fun _ => (0, 0, 0)⟩
  have h1 : checkGroup c .se3 ⟨skewed, 0⟩ = .ok () := by
    refine if_neg fun hh => hh.2 ⟨?_, ?_⟩
    · intro i j
      rw [gram_apply, abs_lt]
      show -(1 / 1000000 : ℝ) < _ ∧ _ < (1 / 1000000 : ℝ)
      fin_cases i <;> fin_cases j <;> norm_num [skewed, third]
    · show |_| < (1 / 1000000 : ℝ)
      rw [skewed, Matrix.det_fin_three]
      simp
      rw [abs_lt]; norm_num
  have h2 : checkGroup c .se3 (SE3.inverse ⟨skewed, 0⟩) = .error .value := by
    refine if_pos ⟨rfl, fun hh => ?_⟩
    have := hh.1 0 0
    rw [gram_apply, abs_lt] at this
    have h := this.2
    change _ < (1 / 1000000 : ℝ) at h
    have e : ∀ i, (SE3.inverse ⟨skewed, 0⟩).R 0 i = skewed i 0 := fun i => rfl
    rw [e, e, e] at h
    have e2 : skewed 2 0 = 0 := rfl
    rw [e2] at h
    norm_num [skewed] at h
  refine ⟨c, rfl, rfl, ⟨skewed, 0⟩, ⟨skewed, 0⟩, ?_, ?_⟩
  · refine ⟨⟨SE3.compose ⟨skewed, 0⟩ ⟨skewed, 0⟩, SE3.composeBackward ⟨skewed, 0⟩ ⟨skewed, 0⟩⟩, ?_⟩
    simp only [binaryOp, compose, h1, guarded_ok]
  · simp only [binaryOp, compose, h1, h2, guarded, getattr, attrs, List.lookup]
    rfl

/-- The hypotheses are met by the identity, by quarter turns and by unit quaternions, with checks enabled. -/
example : ∃ (c : Cfg) (v : Tan .so3), c.checks = true ∧ 0 < c.matEps ∧ ExpRegular c .so3 v ∧ v ≠ 0 ∧
    Rot .so3 (1 : M3) ∧ LogRegular c .so3 (1 : M3) ∧ Rot .se3 ⟨1, ![1, 2, 3]⟩ ∧ LogRegular c .se3 ⟨1, ![1, 2, 3]⟩ ∧
    SO3.quatNorm ![3 / 5, 4 / 5, 0, 0] = 1 := by
  refine ⟨⟨⟨1 / 200, 1 / 100, 1 / 10000000⟩, 1 / 1000000, 1, 1, 1, true, false, fun _ => (0, 0, 0)⟩, ![1, 0, 0], rfl,
    by norm_num, ?_, ?_, by simp [Rot], Or.inr rfl, by simp [Rot], Or.inr rfl, ?_⟩
  · show norm3 _ ≠ _
    simp [norm3, dot3]
  · intro h
    simpa using congrFun h 0
  · simp [SO3.quatNorm]
    norm_num

end Verif.Lie.Fn
