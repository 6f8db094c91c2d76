import Verif.Lie.Tensor
import Verif.Gauss.Props
import Verif.Geometry.SpatialPi

/-!
# The operators of `LieTensor` (C87)
-/

namespace Verif.Lie.Tensor
open Verif.Geometry Matrix

/-! ## Specification -/

/-- What a `LieTensor` does to the points of space: `x ↦ R x (+ t)`. -/
def act : LieT → V3 → V3
  | .se3 g, p => g.R *ᵥ p + g.t
  | .so3 R, p => R *ᵥ p

/-- Legal data: rotation matrices. -/
def Valid : LieT → Prop
  | .se3 g => g.Rᵀ * g.R = 1 ∧ g.R.det = 1
  | .so3 R => Rᵀ * R = 1 ∧ R.det = 1

/-! ## C87 -/

theorem act_inj {x y : LieT} (hl : x.lt = y.lt) (h : ∀ p, act x p = act y p) : x = y := by
  cases x with
  | se3 g =>
    cases y with
    | se3 g' =>
      obtain ⟨R, t⟩ := g
      obtain ⟨R', t'⟩ := g'
      have h0 : t = t' := by simpa [act] using h 0
      subst h0
      have hR : R = R' := by
        ext i j
        have := congrFun (h (Pi.single j 1)) i
        simpa [act] using this
      rw [hR]
    | so3 _ => cases hl
  | so3 R =>
    cases y with
    | so3 R' =>
      have hR : R = R' := by
        ext i j
        have := congrFun (h (Pi.single j 1)) i
        simpa [act] using this
      rw [hR]
    | se3 _ => cases hl

/-- `x.compose(y)` is defined exactly for a `LieTensor` of the same type, and acts on points as `y`
followed by `x`; `x.inv()` undoes `x`; `x @ p`, `transform` and `untransform` are the action and its
inverse. -/
theorem lie_compose_acts (x y : LieT) :
    ((∃ z, compose x (.lie y) = .ok z) ↔ x.lt = y.lt) ∧
    (∀ z, compose x (.lie y) = .ok z → z.lt = x.lt ∧ ∀ p, act z p = act x (act y p)) ∧
    (∀ p, matmul x (.v3 p) = .ok (act x p) ∧ transform x (.v3 p) = .ok (act x p)) ∧
    (Valid x → ∀ p, act (inv x) (act x p) = p ∧ act x (act (inv x) p) = p ∧
      untransform x (.v3 p) = .ok (act (inv x) p)) := by
  refine ⟨?_, ?_, ?_, ?_⟩
  · cases x <;> cases y <;> simp [compose, LieT.lt]
  · intro z hz
    cases x <;> cases y <;> simp only [compose, Except.ok.injEq, reduceCtorEq] at hz
    · subst hz
      refine ⟨rfl, fun p => ?_⟩
      simp [act, SE3.compose, Matrix.mulVec_add, add_assoc]
    · subst hz
      exact ⟨rfl, fun p => by simp [act]⟩
  · intro p
    cases x
    · simp [matmul, transform, act, SE3.transform, add_comm]
    · simp [matmul, transform, act, SO3.transform]
  · intro hv p
    cases x with
    | se3 g =>
      have h1 : g.Rᵀ * g.R = 1 := hv.1
      have h2 : g.R * g.Rᵀ = 1 := mul_eq_one_comm.mp h1
      refine ⟨?_, ?_, ?_⟩
      · simp [inv, act, SE3.inverse, Matrix.mulVec_add, h1, Matrix.neg_mulVec]
      · simp [inv, act, SE3.inverse, Matrix.mulVec_add, h2, Matrix.neg_mulVec, Matrix.mulVec_neg]
      · simp [inv, act, untransform, SE3.inverse, SE3.untransform, Matrix.mulVec_add,
          Matrix.mulVec_neg, Matrix.neg_mulVec, sub_eq_add_neg]
    | so3 R =>
      have h1 : Rᵀ * R = 1 := hv.1
      have h2 : R * Rᵀ = 1 := mul_eq_one_comm.mp h1
      exact ⟨by simp [inv, act, h1], by simp [inv, act, h2],
        by simp [inv, act, untransform, SO3.untransform]⟩

/-- `x * y` is defined exactly when `x.compose(y)` is, but it is the composition in the opposite
order: it acts on points as `x` followed by `y`.  The two agree exactly when `x` and `y` commute. -/
theorem lie_mul_reversed (x y : LieT) :
    (mul x (.lie y) = compose y (.lie x)) ∧
    (∀ z, mul x (.lie y) = .ok z → ∀ p, matmul z (.v3 p) = .ok (act y (act x p))) ∧
    (x.lt = y.lt → (mul x (.lie y) = compose x (.lie y) ↔ ∀ p, act x (act y p) = act y (act x p))) := by
  refine ⟨rfl, fun z hz p => ?_, fun hl => ?_⟩
  · rw [((lie_compose_acts z y).2.2.1 p).1, ((lie_compose_acts y x).2.1 z hz).2]
  · obtain ⟨z, hz⟩ := (lie_compose_acts x y).1.2 hl
    obtain ⟨w, hw⟩ := (lie_compose_acts y x).1.2 hl.symm
    have az := (lie_compose_acts x y).2.1 z hz
    have aw := (lie_compose_acts y x).2.1 w hw
    change compose y (.lie x) = _ ↔ _
    rw [hz, hw]
    constructor
    · intro h p
      rw [← az.2, ← aw.2, Except.ok.inj h]
    · intro h
      rw [act_inj (x := w) (y := z) (by rw [az.1, aw.1, hl]) fun p => by rw [az.2, aw.2, h]]

/-- The rotations by 90 degrees about the x and the z axis. -/
def rotX : LieT := .so3 !![1, 0, 0; 0, 0, -1; 0, 1, 0]
def rotZ : LieT := .so3 !![0, -1, 0; 1, 0, 0; 0, 0, 1]

/-- The README's `g1 * g2 == g1.compose(g2)` is false, and so is `(g1 * g2) @ p == g1 @ (g2 @ p)`. -/
theorem lie_mul_not_compose :
    Valid rotX ∧ Valid rotZ ∧ mul rotX (.lie rotZ) ≠ compose rotX (.lie rotZ) ∧
    ∃ z p q, mul rotX (.lie rotZ) = .ok z ∧ matmul rotZ (.v3 p) = .ok q ∧
      matmul z (.v3 p) ≠ matmul rotX (.v3 q) := by
  have hX : Valid rotX := by
    constructor
    · ext i j; fin_cases i <;> fin_cases j <;> simp [Matrix.mul_apply, Fin.sum_univ_three]
    · simp [Matrix.det_fin_three]
  have hZ : Valid rotZ := by
    constructor
    · ext i j; fin_cases i <;> fin_cases j <;> simp [Matrix.mul_apply, Fin.sum_univ_three]
    · simp [Matrix.det_fin_three]
  have hne : act rotX (act rotZ ![1, 0, 0]) ≠ act rotZ (act rotX ![1, 0, 0]) := by
    intro h
    have h1 : act rotX (act rotZ ![1, 0, 0]) 1 = 0 := by
      simp [act, rotX, rotZ, Matrix.vecHead, Matrix.vecTail]
    have h2 : act rotZ (act rotX ![1, 0, 0]) 1 = 1 := by
      simp [act, rotX, rotZ, Matrix.vecHead, Matrix.vecTail]
    rw [h, h2] at h1
    exact one_ne_zero h1
  refine ⟨hX, hZ, fun h => hne (((lie_mul_reversed rotX rotZ).2.2 rfl).1 h _), ?_⟩
  obtain ⟨z, hz⟩ := (lie_compose_acts rotZ rotX).1.2 rfl
  refine ⟨z, ![1, 0, 0], act rotZ ![1, 0, 0], hz, ((lie_compose_acts rotZ rotX).2.2.1 _).1, ?_⟩
  rw [(lie_mul_reversed rotX rotZ).2.1 z hz, ((lie_compose_acts rotX rotX).2.2.1 _).1]
  intro h
  exact hne (Except.ok.inj h).symm

/-- The operators reject every argument of the wrong type or `ltype`, with the exception of the
documented kind. -/
theorem lie_operators_reject (e : Eps) (x : LieT) (v : Val) :
    ((∀ y, v ≠ .lie y) → mul x v = .error .type ∧ «local» e x v = .error .type) ∧
    (∀ y, v = .lie y → y.lt ≠ x.lt →
      mul x v = .error .value ∧ «local» e x v = .error .value ∧ compose x v = .error .value) ∧
    (∀ y, v = .lie y → matmul x v = .error .type) ∧
    (v = .other → retract e x v = .error .type) := by
  refine ⟨fun h => ?_, ?_, ?_, ?_⟩
  · cases v with
    | lie y => exact absurd rfl (h y)
    | _ => exact ⟨rfl, rfl⟩
  · rintro y rfl h
    cases x <;> cases y <;> simp_all [mul, «local», compose, LieT.lt]
  · rintro y rfl; rfl
  · rintro rfl; rfl

/-- `local` and `retract` succeed on every argument of the right type and `ltype`, are the group
formulas `log(x⁻¹ y)` and `x exp(δ)`, and `x.local(x.retract(δ)) = δ` wherever it holds for the
group (C48): for rotations by less than π that are zero or beyond the small-angle threshold, and, in
the range of `near_pi`, not about the axes `(0, ±1, ±1)`. -/
theorem lie_local_retract_partial {e : Eps} (h0 : 0 < e.near) (h1 : 0 ≤ e.npi) (h2 : e.npi < 2) :
    (∀ R d, Valid (.so3 R) → Gauss.Domain ⟨e.near, e.dnear, e.npi⟩ .so3 d →
      ∃ y, retract e (.so3 R) (.v3 d) = .ok y ∧ Valid y ∧
        «local» e (.so3 R) (.lie y) = .ok (.v3 d)) ∧
    (∀ g d, Valid (.se3 g) → Gauss.Domain ⟨e.near, e.dnear, e.npi⟩ .se3 d →
      ∃ y, retract e (.se3 g) (.v6 d) = .ok y ∧ Valid y ∧
        «local» e (.se3 g) (.lie y) = .ok (.v6 d)) := by
  have hl : Gauss.Eps.Legal ⟨e.near, e.dnear, e.npi⟩ := ⟨h0, h1, h2⟩
  constructor
  · intro R d hR hd
    refine ⟨.so3 (R * SO3.exp e.near d), rfl, ?_, ?_⟩
    · exact (SO3.lawful h0 e.dnear e.npi).compose_valid R _ hR
        ((SO3.lawful h0 e.dnear e.npi).exp_valid d)
    · have := Gauss.local_retract_kind hl .so3 R hR d hd
      exact congrArg (fun v : V3 => Except.ok (Val.v3 v)) this
  · intro g d hg hd
    refine ⟨.se3 (SE3.compose g (SE3.exp e.near d)), rfl, ?_, ?_⟩
    · exact (SE3.lawful h0 e.dnear e.npi).compose_valid g _ hg
        ((SE3.lawful h0 e.dnear e.npi).exp_valid d)
    · have := Gauss.local_retract_kind hl .se3 g hg d hd
      exact congrArg (fun v : Fin 6 → ℝ => Except.ok (Val.v6 v)) this

/-! ## Non-vacuity -/

example : Gauss.Domain ⟨5e-3, 1e-2, 1e-7⟩ .so3 (![0, 0, 0] : Fin 3 → ℝ) := Or.inr (by
  funext i; fin_cases i <;> rfl)

example : ∃ z, mul rotX (.lie rotZ) = .ok z ∧ ∃ w, compose rotX (.lie rotX) = .ok w ∧
    mul rotX (.lie rotX) = compose rotX (.lie rotX) := ⟨_, rfl, _, rfl, rfl⟩

example : mul rotX (.v3 0) = .error .type ∧ mul rotX (.lie (.se3 SE3.one)) = .error .value :=
  ⟨rfl, rfl⟩

end Verif.Lie.Tensor
