import Verif.Embodied.Spec
import Verif.Embodied.Motion
import Verif.Geometry.SpatialJac
import Mathlib.Tactic

/-!
# Properties of the motion models (C69, C76)
-/

namespace Verif.Embodied
open Verif.Geometry Matrix

section DI
variable {n m : ℕ} {G : Type} {E : Embedding n m G} {L : Ops n G}

theorem rows_mulVec (A B : Matrix (Fin n) (Fin n) ℝ) (v : Fin n → ℝ) :
    rows A B *ᵥ v = Fin.append (A *ᵥ v) (B *ᵥ v) := by
  ext i
  refine Fin.addCases (fun i => ?_) (fun i => ?_) i <;>
    simp [rows, Matrix.mulVec, dotProduct, -Fin.natAdd_eq_addNat]

theorem VecDeriv.append {a b : ℕ} {f : ℝ → Fin a → ℝ} {g : ℝ → Fin b → ℝ} {f' g'}
    (hf : VecDeriv f f') (hg : VecDeriv g g') :
    VecDeriv (fun t => Fin.append (f t) (g t)) (Fin.append f' g') := by
  intro i
  refine Fin.addCases (fun i => ?_) (fun i => ?_) i
  · simpa using hf i
  · simpa using hg i

/-- `DoubleIntegrator`: the four Jacobians are the derivatives of the error wherever the Jacobians of
`local` are those of `local` (see C49 and C60 for when they are). -/
theorem double_integrator_jac {p1 p2 : G} (v1 v2 : Fin n → ℝ) (dt : ℝ)
    (h1 : E.HasJac (fun g => L.local g p2) p1 (L.localJac p1 p2).1)
    (h2 : E.HasJac (fun g => L.local p1 g) p2 (L.localJac p1 p2).2) :
    E.HasJac (fun g => diError L g v1 p2 v2 dt) p1 (diJac L p1 p2 dt).1 ∧
    HasVJac (fun v => diError L p1 v p2 v2 dt) v1 (diJac L p1 p2 dt).2.1 ∧
    E.HasJac (fun g => diError L p1 v1 g v2 dt) p2 (diJac L p1 p2 dt).2.2.1 ∧
    HasVJac (fun v => diError L p1 v1 p2 v dt) v2 (diJac L p1 p2 dt).2.2.2 := by
  refine ⟨?_, ?_, ?_, ?_⟩
  · intro x ξ hx ht
    simp only [diJac, rows_mulVec, diError]
    refine VecDeriv.append (fun i => ?_) (fun i => ?_)
    · exact (h1 x ξ hx ht i).sub_const _
    · simpa using hasDerivAt_const (0 : ℝ) _
  · intro x δ hx hd
    simp only [diJac, rows_mulVec, diError]
    refine VecDeriv.append (fun i => ?_) (fun i => ?_)
    · refine (((hd i).const_mul dt).const_sub (L.local p1 p2 i)).congr_deriv ?_
      simp [Matrix.smul_mulVec, Matrix.neg_mulVec]
    · refine ((hd i).const_sub (v2 i)).congr_deriv ?_
      simp [Matrix.neg_mulVec]
  · intro x ξ hx ht
    simp only [diJac, rows_mulVec, diError]
    refine VecDeriv.append (fun i => ?_) (fun i => ?_)
    · exact (h2 x ξ hx ht i).sub_const _
    · simpa using hasDerivAt_const (0 : ℝ) _
  · intro x δ hx hd
    simp only [diJac, rows_mulVec, diError]
    refine VecDeriv.append (fun i => ?_) (fun i => ?_)
    · simpa using hasDerivAt_const (0 : ℝ) _
    · refine ((hd i).sub_const (v1 i)).congr_deriv ?_
      simp

/-- The error is zero exactly for motion at constant velocity: the second pose is reached from the
first one by moving for a time `dt` at velocity `vel1`, and the velocities are equal.  (Where
`local` and `retract` are inverse: C48.) -/
theorem double_integrator_zero (h : E.Lawful L) {p1 p2 : G} (hp : E.valid p1) (v1 v2 : Fin n → ℝ)
    (dt : ℝ) (hlog : L.exp (L.log (L.between p1 p2)) = L.between p1 p2)
    (hexp : L.log (L.exp (dt • v1)) = dt • v1) :
    diError L p1 v1 p2 v2 dt = 0 ↔ p2 = L.retract p1 (dt • v1) ∧ v2 = v1 := by
  have key : diError L p1 v1 p2 v2 dt = 0 ↔ L.local p1 p2 = dt • v1 ∧ v2 = v1 := by
    constructor
    · intro h
      refine ⟨?_, ?_⟩
      · ext i
        have := congrFun h (Fin.castAdd n i)
        simpa [diError, sub_eq_zero] using this
      · ext i
        have := congrFun h (Fin.natAdd n i)
        simpa [diError, sub_eq_zero, -Fin.natAdd_eq_addNat] using this
    · rintro ⟨h1, h2⟩
      ext i
      refine Fin.addCases (fun i => ?_) (fun i => ?_) i <;>
        simp [diError, h1, h2, -Fin.natAdd_eq_addNat]
  rw [key]
  refine and_congr_left fun _ => ⟨fun h1 => ?_, fun h1 => ?_⟩
  · rw [← h1, retract_local h hp hlog]
  · rw [h1, local_retract h hp hexp]

/-- Moving both elements by the same group element on the left does not change the relative one. -/
theorem between_invariant (h : E.Lawful L) {g a : G} (hg : E.valid g) (ha : E.valid a) (b : G) :
    L.between (L.compose g a) (L.compose g b) = L.between a b := by
  unfold Ops.between
  rw [h.inverse_compose_rev hg ha, ← h.assoc, h.assoc (L.inverse a) (L.inverse g) g,
    h.inverse_compose hg, h.compose_one]

/-- The error does not depend on the frame of reference of the poses. -/
theorem double_integrator_invariant (h : E.Lawful L) {g p1 : G} (hg : E.valid g) (hp : E.valid p1)
    (p2 : G) (v1 v2 : Fin n → ℝ) (dt : ℝ) :
    diError L (L.compose g p1) v1 (L.compose g p2) v2 dt = diError L p1 v1 p2 v2 dt := by
  unfold diError Ops.local
  rw [between_invariant h hg hp]

end DI

/-- `DoubleIntegrator` on each class of poses: the Jacobians are the derivatives of the error for
every relative rotation that is zero, or at least the threshold and not (near) π. -/
theorem double_integrator_jac_groups_partial {eps deps epi : ℝ} (he : 0 < eps) (hed : eps < deps)
    (hpi0 : 0 ≤ epi) (hpi : epi < 2) (dt : ℝ) :
    (∀ (n : ℕ) (p1 p2 v1 v2 : Fin n → ℝ),
      HasVJac (fun g => diError (Vec.ops n) g v1 p2 v2 dt) p1 (diJac (Vec.ops n) p1 p2 dt).1 ∧
      HasVJac (fun v => diError (Vec.ops n) p1 v p2 v2 dt) v1 (diJac (Vec.ops n) p1 p2 dt).2.1 ∧
      HasVJac (fun g => diError (Vec.ops n) p1 v1 g v2 dt) p2
        (diJac (Vec.ops n) p1 p2 dt).2.2.1 ∧
      HasVJac (fun v => diError (Vec.ops n) p1 v1 p2 v dt) v2
        (diJac (Vec.ops n) p1 p2 dt).2.2.2) ∧
    (∀ (p1 p2 : SO2) (v1 v2 : Fin 1 → ℝ), p1.c ^ 2 + p1.s ^ 2 = 1 → p2.c ^ 2 + p2.s ^ 2 = 1 →
      (SO2.ops.between p1 p2).log ≠ Real.pi →
      SO2.emb.HasJac (fun g => diError SO2.ops g v1 p2 v2 dt) p1 (diJac SO2.ops p1 p2 dt).1 ∧
      HasVJac (fun v => diError SO2.ops p1 v p2 v2 dt) v1 (diJac SO2.ops p1 p2 dt).2.1 ∧
      SO2.emb.HasJac (fun g => diError SO2.ops p1 v1 g v2 dt) p2 (diJac SO2.ops p1 p2 dt).2.2.1 ∧
      HasVJac (fun v => diError SO2.ops p1 v1 p2 v dt) v2 (diJac SO2.ops p1 p2 dt).2.2.2) ∧
    (∀ (p1 p2 : SE2) (v1 v2 : Fin 3 → ℝ), p1.c ^ 2 + p1.s ^ 2 = 1 → p2.c ^ 2 + p2.s ^ 2 = 1 →
      ((deps ≤ |((SE2.ops eps deps).between p1 p2).rot.log| ∧
        ((SE2.ops eps deps).between p1 p2).rot.log ≠ Real.pi) ∨
        ((SE2.ops eps deps).between p1 p2).rot.log = 0) →
      let L := SE2.ops eps deps
      SE2.emb.HasJac (fun g => diError L g v1 p2 v2 dt) p1 (diJac L p1 p2 dt).1 ∧
      HasVJac (fun v => diError L p1 v p2 v2 dt) v1 (diJac L p1 p2 dt).2.1 ∧
      SE2.emb.HasJac (fun g => diError L p1 v1 g v2 dt) p2 (diJac L p1 p2 dt).2.2.1 ∧
      HasVJac (fun v => diError L p1 v1 p2 v dt) v2 (diJac L p1 p2 dt).2.2.2) ∧
    (∀ (p1 p2 : M3) (v1 v2 : V3), (p1ᵀ * p1 = 1 ∧ p1.det = 1) → (p2ᵀ * p2 = 1 ∧ p2.det = 1) →
      ((eps < SO3.theta (p1ᵀ * p2) ∧ deps ≤ SO3.theta (p1ᵀ * p2) ∧
        SO3.BranchOk epi (p1ᵀ * p2)) ∨ p1 = p2) →
      let L := SO3.ops eps deps epi
      SO3.emb.HasJac (fun g => diError L g v1 p2 v2 dt) p1 (diJac L p1 p2 dt).1 ∧
      HasVJac (fun v => diError L p1 v p2 v2 dt) v1 (diJac L p1 p2 dt).2.1 ∧
      SO3.emb.HasJac (fun g => diError L p1 v1 g v2 dt) p2 (diJac L p1 p2 dt).2.2.1 ∧
      HasVJac (fun v => diError L p1 v1 p2 v dt) v2 (diJac L p1 p2 dt).2.2.2) ∧
    (∀ (p1 p2 : SE3) (v1 v2 : Fin 6 → ℝ), (p1.Rᵀ * p1.R = 1 ∧ p1.R.det = 1) →
      (p2.Rᵀ * p2.R = 1 ∧ p2.R.det = 1) →
      ((eps < SO3.theta (p1.Rᵀ * p2.R) ∧ deps ≤ SO3.theta (p1.Rᵀ * p2.R) ∧
        SO3.BranchOk epi (p1.Rᵀ * p2.R)) ∨ p1.R = p2.R) →
      let L := SE3.ops eps deps epi
      SE3.emb.HasJac (fun g => diError L g v1 p2 v2 dt) p1 (diJac L p1 p2 dt).1 ∧
      HasVJac (fun v => diError L p1 v p2 v2 dt) v1 (diJac L p1 p2 dt).2.1 ∧
      SE3.emb.HasJac (fun g => diError L p1 v1 g v2 dt) p2 (diJac L p1 p2 dt).2.2.1 ∧
      HasVJac (fun v => diError L p1 v1 p2 v dt) v2 (diJac L p1 p2 dt).2.2.2) := by
  refine ⟨?_, ?_, ?_, ?_, ?_⟩
  · intro n p1 p2 v1 v2
    have hv : ∀ {k : ℕ} {f : (Fin n → ℝ) → Fin k → ℝ} {p J}, (Vec.emb n).HasJac f p J →
        HasVJac f p J := by
      intro k f p J h x δ hx hd
      refine h x δ hx ⟨fun _ => trivial, fun i j => ?_⟩
      simp only [Vec.emb, Matrix.add_mul, Vec.hat_mul_hat, Matrix.one_mul, add_zero]
      simp only [Matrix.add_apply]
      refine HasDerivAt.const_add _ ?_
      simp only [Vec.hat, Matrix.of_apply]
      by_cases hj : j = Fin.last n
      · by_cases hi : i = Fin.last n
        · subst hi; simpa [hj] using hasDerivAt_const (0 : ℝ) (0 : ℝ)
        · obtain ⟨i, rfl⟩ := Fin.exists_castSucc_eq.mpr hi
          simpa [hj, hi] using hd i
      · simpa [hj] using hasDerivAt_const (0 : ℝ) (0 : ℝ)
    have hl := vec_log_jac ((Vec.ops n).between p1 p2)
    obtain ⟨a, b, c, d⟩ := double_integrator_jac (E := Vec.emb n) (L := Vec.ops n) v1 v2 dt
      (Vec.lawful.local_jac_left trivial trivial hl (by simp [Vec.ops]))
      (Vec.lawful.local_jac_right trivial hl)
    exact ⟨hv a, b, hv c, d⟩
  · intro p1 p2 v1 v2 h1 h2 hpi
    have hl := so2_log_jac (SO2.lawful.compose_valid _ _ (SO2.lawful.inverse_valid _ h1) h2) hpi
    exact double_integrator_jac v1 v2 dt (SO2.lawful.local_jac_left h1 h2 hl (by simp [SO2.ops]))
      (SO2.lawful.local_jac_right h1 hl)
  · intro p1 p2 v1 v2 h1 h2 h
    obtain ⟨a, b⟩ := se2_local_jac_partial he hed p1 p2 h1 h2 h
    exact double_integrator_jac v1 v2 dt a b
  · intro p1 p2 v1 v2 h1 h2 h
    obtain ⟨a, b, -⟩ := (so3_costs_jac_partial he (he.trans hed) hpi0 hpi).1 p1 p2 h1 h2 h
    exact double_integrator_jac v1 v2 dt a b
  · intro p1 p2 v1 v2 h1 h2 h
    obtain ⟨a, b, -⟩ := (se3_costs_jac_partial he (he.trans hed) hpi0 hpi).1 p1 p2 h1 h2 h
    exact double_integrator_jac v1 v2 dt a b

/-! ## `HingeCost` -/
section Hinge
variable {n : ℕ}

/-- For non-negative thresholds that leave room between the limits, component `i` of the error is
the distance of `v i` to the interval `[down + thr, up - thr]`; it is zero exactly in this
interval. -/
theorem hinge_error (down up thr v : Fin n → ℝ) (i : Fin n)
    (h : down i + thr i ≤ up i - thr i) :
    hingeError down up thr v i = max 0 (max (down i + thr i - v i) (v i - (up i - thr i))) ∧
    (hingeError down up thr v i = 0 ↔ down i + thr i ≤ v i ∧ v i ≤ up i - thr i) := by
  unfold hingeError
  constructor
  · simp only
    split_ifs with h1 h2
    · rw [max_eq_right (a := down i + thr i - v i) (by linarith), max_eq_right (by linarith)]
    · rw [max_eq_left (b := v i - (up i - thr i)) (by linarith), max_eq_right (by linarith)]
    · rw [max_eq_left]
      exact max_le (by linarith) (by linarith)
  · simp only
    split_ifs with h1 h2
    · exact ⟨fun hh => by linarith, fun hh => by linarith [hh.2]⟩
    · exact ⟨fun hh => by linarith, fun hh => by linarith [hh.1]⟩
    · exact ⟨fun _ => ⟨by linarith, by linarith⟩, fun _ => rfl⟩

/-- The Jacobian is the derivative of the error away from the two corners. -/
theorem hinge_jac (down up thr v : Fin n → ℝ)
    (h : ∀ i, v i ≠ down i + thr i ∧ v i ≠ up i - thr i) :
    HasVJac (fun v => hingeError down up thr v) v (hingeJac down up thr v) := by
  intro x δ hx hd i
  have hc : ContinuousAt (fun t => x t i) 0 := (hd i).continuousAt
  have h0 : x 0 i = v i := congrFun hx i
  have hJ : (hingeJac down up thr v *ᵥ δ) i
      = (if v i > up i - thr i then 1 else if v i < down i + thr i then -1 else 0) * δ i := by
    simp [hingeJac, Matrix.mulVec, dotProduct, ite_mul]
  rw [hJ]
  obtain ⟨hl, hu⟩ := h i
  rcases lt_or_gt_of_ne hu with h1 | h1
  · have e1 : ∀ᶠ t in nhds (0 : ℝ), x t i < up i - thr i :=
      hc.eventually_lt continuousAt_const (by rw [h0]; exact h1)
    rw [if_neg (not_lt.mpr h1.le)]
    rcases lt_or_gt_of_ne hl with h2 | h2
    · have e2 : ∀ᶠ t in nhds (0 : ℝ), x t i < down i + thr i :=
        hc.eventually_lt continuousAt_const (by rw [h0]; exact h2)
      rw [if_pos h2]
      refine (((hd i).const_sub (down i + thr i)).congr_of_eventuallyEq ?_).congr_deriv (by ring)
      filter_upwards [e1, e2] with t a b
      simp [hingeError, not_lt.mpr a.le, b]
    · have e2 : ∀ᶠ t in nhds (0 : ℝ), down i + thr i < x t i :=
        continuousAt_const.eventually_lt hc (by rw [h0]; exact h2)
      rw [if_neg (not_lt.mpr h2.le)]
      refine ((hasDerivAt_const (0 : ℝ) (0 : ℝ)).congr_of_eventuallyEq ?_).congr_deriv (by ring)
      filter_upwards [e1, e2] with t a b
      simp [hingeError, not_lt.mpr a.le, not_lt.mpr b.le]
  · have e1 : ∀ᶠ t in nhds (0 : ℝ), up i - thr i < x t i :=
      continuousAt_const.eventually_lt hc (by rw [h0]; exact h1)
    rw [if_pos h1]
    refine (((hd i).sub_const (up i - thr i)).congr_of_eventuallyEq ?_).congr_deriv (by ring)
    filter_upwards [e1] with t a
    simp [hingeError, a]

/-- The constructor rejects limits in the wrong order and thresholds that are *all* negative. -/
theorem hinge_accepts_iff (down up thr : Fin n → ℝ) :
    hingeAccepts down up thr = true ↔ (∀ i, down i ≤ up i) ∧ ∃ i, 0 ≤ thr i := by
  simp [hingeAccepts]

/-- With a non-negative threshold, zero error means that the limits are respected. -/
theorem hinge_zero_within (down up thr v : Fin n → ℝ) (i : Fin n) (ht : 0 ≤ thr i)
    (h : down i + thr i ≤ up i - thr i) (h0 : hingeError down up thr v i = 0) :
    down i ≤ v i ∧ v i ≤ up i := by
  obtain ⟨a, b⟩ := (hinge_error down up thr v i h).2.mp h0
  constructor <;> linarith

/-- A negative threshold passes the check if another one is not negative ("Threshold values must be
positive numbers" is tested on the maximum), and then vectors outside of the limits have zero
error. -/
theorem hinge_negative_threshold :
    let down : Fin 2 → ℝ := ![0, 0]
    let up : Fin 2 → ℝ := ![1, 1]
    let thr : Fin 2 → ℝ := ![0, -1]
    hingeAccepts down up thr = true ∧ up 1 < (![0, 2] : Fin 2 → ℝ) 1 ∧
      hingeError down up thr ![0, 2] = 0 := by
  refine ⟨?_, by norm_num, ?_⟩
  · rw [hinge_accepts_iff]
    refine ⟨fun i => by fin_cases i <;> simp, 0, by simp⟩
  · ext i; fin_cases i <;> norm_num [hingeError]

/-- A threshold above half the distance of the limits also passes, and the error is then not the
violation: it drops from 2 to 0 at the upper corner although the lower limit is violated there. -/
theorem hinge_large_threshold :
    let down : Fin 1 → ℝ := ![0]
    let up : Fin 1 → ℝ := ![0]
    let thr : Fin 1 → ℝ := ![1]
    hingeAccepts down up thr = true ∧ hingeError down up thr ![-1] = ![2] ∧
      ∀ e : ℝ, 0 < e → e ≤ 1 → hingeError down up thr ![-1 + e] = ![e] := by
  refine ⟨?_, ?_, ?_⟩
  · rw [hinge_accepts_iff]
    exact ⟨fun i => by simp, 0, by simp⟩
  · ext i; fin_cases i; norm_num [hingeError]
  · intro e h0 h1
    ext i; fin_cases i
    simp [hingeError, h0]

end Hinge

/-! ## `Nonholonomic` -/

/-- `Nonholonomic` with a vector pose `(x, y, θ)`: the Jacobians are the derivatives of the error,
which is the component of the velocity across the heading `θ`; so it is zero exactly if the
velocity is a multiple of the heading. -/
theorem nonholonomic_vector (pose vel : Fin 3 → ℝ) :
    HasVJac (fun p => ![nhError p vel]) pose (nhJac pose vel).1 ∧
    HasVJac (fun v => ![nhError pose v]) vel (nhJac pose vel).2 ∧
    nhError pose vel = (SO2.unrotate (SO2.exp (pose 2)) ⟨vel 0, vel 1⟩).y ∧
    (nhError pose vel = 0 ↔
      ∃ k : ℝ, vel 0 = k * Real.cos (pose 2) ∧ vel 1 = k * Real.sin (pose 2)) := by
  refine ⟨?_, ?_, ?_, ?_⟩
  · intro x δ hx hd i
    fin_cases i
    have h := hd 2
    have hc := (Real.hasDerivAt_cos (x 0 2)).comp (0 : ℝ) h
    have hs := (Real.hasDerivAt_sin (x 0 2)).comp (0 : ℝ) h
    refine ((hc.const_mul (vel 1)).sub (hs.const_mul (vel 0))).congr_deriv ?_
    simp [nhJac, Matrix.mulVec, dotProduct, Fin.sum_univ_three, hx]
    ring
  · intro x δ hx hd i
    fin_cases i
    refine (((hd 1).mul_const (Real.cos (pose 2))).sub
      ((hd 0).mul_const (Real.sin (pose 2)))).congr_deriv ?_
    simp [nhJac, Matrix.mulVec, dotProduct, Fin.sum_univ_three]
    ring
  · simp [nhError, SO2.unrotate, SO2.exp, SO2.rotateFromCosSin]
    ring
  · have hcs := Real.cos_sq_add_sin_sq (pose 2)
    constructor
    · intro h
      unfold nhError at h
      refine ⟨vel 0 * Real.cos (pose 2) + vel 1 * Real.sin (pose 2), ?_, ?_⟩
      · linear_combination (-vel 0) * hcs - Real.sin (pose 2) * h
      · linear_combination (-vel 1) * hcs + Real.cos (pose 2) * h
    · rintro ⟨k, h1, h2⟩
      rw [nhError, h1, h2]; ring

/-- With an `SE2` pose the velocity is in the body frame: the error is its lateral component, and
the Jacobians are the derivatives. -/
theorem nonholonomic_se2 (pose : SE2) (vel : Fin 3 → ℝ) :
    SE2.emb.HasJac (fun g => ![nhErrorSE2 g vel]) pose nhJacSE2.1 ∧
    HasVJac (fun v => ![nhErrorSE2 pose v]) vel nhJacSE2.2 ∧
    nhErrorSE2 pose vel = vel 1 := by
  refine ⟨?_, ?_, rfl⟩
  · intro x ξ hx ht i
    fin_cases i
    refine (hasDerivAt_const (0 : ℝ) (vel 1)).congr_deriv ?_
    simp [nhJacSE2, Matrix.mulVec, dotProduct, Fin.sum_univ_three]
  · intro x δ hx hd i
    fin_cases i
    refine (hd 1).congr_deriv ?_
    simp [nhJacSE2, Matrix.mulVec, dotProduct, Fin.sum_univ_three]

/-! ## The hypotheses can be met -/

/-- A point moving at constant velocity: the hypotheses of `double_integrator_zero` hold and the
error is zero. -/
example : (Vec.ops 1).exp ((Vec.ops 1).log ((Vec.ops 1).between ![3] ![5]))
      = (Vec.ops 1).between ![3] ![5] ∧
    (Vec.ops 1).log ((Vec.ops 1).exp ((2 : ℝ) • ![1])) = (2 : ℝ) • ![1] ∧
    diError (Vec.ops 1) ![3] ![1] ![5] ![1] 2 = 0 := by
  have h1 : (Vec.ops 1).exp ((Vec.ops 1).log ((Vec.ops 1).between ![3] ![5]))
      = (Vec.ops 1).between ![3] ![5] := rfl
  have h2 : (Vec.ops 1).log ((Vec.ops 1).exp ((2 : ℝ) • ![1])) = (2 : ℝ) • ![1] := rfl
  refine ⟨h1, h2, ?_⟩
  rw [double_integrator_zero (E := Vec.emb 1) Vec.lawful trivial _ _ _ h1 h2]
  refine ⟨?_, rfl⟩
  ext i; fin_cases i
  norm_num [Ops.retract, Vec.ops]

/-- A quarter turn with a translation is in the domain of the `SE2` part of
`double_integrator_jac_groups_partial`. -/
example : (1 / 100 : ℝ) ≤ |((SE2.ops (1 / 200) (1 / 100)).between ⟨0, 0, 1, 0⟩ ⟨1, 2, 0, 1⟩).rot.log|
    ∧ ((SE2.ops (1 / 200) (1 / 100)).between ⟨0, 0, 1, 0⟩ ⟨1, 2, 0, 1⟩).rot.log ≠ Real.pi := by
  have hl : ((SE2.ops (1 / 200) (1 / 100)).between ⟨0, 0, 1, 0⟩ ⟨1, 2, 0, 1⟩).rot.log
      = Real.pi / 2 := by
    have h : ((SE2.ops (1 / 200) (1 / 100)).between ⟨0, 0, 1, 0⟩ ⟨1, 2, 0, 1⟩).rot.log
        = Complex.arg ⟨0, 1⟩ := by
      simp [Ops.between, SE2.ops, SE2.compose, SE2.inverse, SE2.rot, SO2.log, SO2.compose,
        SO2.inverse, SE2.mk', SO2.atan2]
    rw [h]
    exact Complex.arg_I
  rw [hl]
  have := Real.pi_gt_three
  exact ⟨by rw [abs_of_pos] <;> linarith, by linarith⟩

/-- A value between the corners of `HingeCost`, and one that violates the upper limit. -/
example : (∀ i, (![1 / 2] : Fin 1 → ℝ) i ≠ (![0] : Fin 1 → ℝ) i + (![1 / 4] : Fin 1 → ℝ) i ∧
      (![1 / 2] : Fin 1 → ℝ) i ≠ (![1] : Fin 1 → ℝ) i - (![1 / 4] : Fin 1 → ℝ) i) ∧
    hingeAccepts (![0] : Fin 1 → ℝ) ![1] ![1 / 4] = true ∧
    hingeError (![0] : Fin 1 → ℝ) ![1] ![1 / 4] ![2] = ![5 / 4] := by
  refine ⟨fun i => by fin_cases i; norm_num, ?_, ?_⟩
  · rw [hinge_accepts_iff]
    exact ⟨fun i => by fin_cases i; norm_num, 0, by norm_num⟩
  · ext i; fin_cases i; norm_num [hingeError]

/-- Driving along the diagonal heading has no lateral velocity. -/
example : nhError ![7, 8, Real.pi / 4] ![1, 1, 3] = 0 := by
  simp [nhError]

end Verif.Embodied
