import Verif.Geometry.PlanarProps

/-!
# Properties of the derived operations and of the Jacobians on `Vector`, `SO2` and `SE2`
(C47, C48, C49)
-/

namespace Verif.Geometry
open Matrix

/-! ## C47: hat and vee (planar groups) -/

/-- `SO2`: `hat` is linear, `vee(hat(v))` succeeds with `v`, and when `vee(M)` succeeds,
`hat(vee(M))` is `M` up to the tolerances of the check. -/
theorem so2_hat_vee :
    (∀ (r : ℝ) (u v : Fin 1 → ℝ), SO2.hat (r • u + v) = r • SO2.hat u + SO2.hat v) ∧
    (∀ v, SO2.vee (SO2.hat v) = some v) ∧
    (∀ M v, SO2.vee M = some v →
      |M 0 0 - SO2.hat v 0 0| < 1 / 10 ^ 10 ∧ |M 1 1 - SO2.hat v 1 1| < 1 / 10 ^ 10 ∧
      M 1 0 = SO2.hat v 1 0 ∧
      |M 0 1 - SO2.hat v 0 1| ≤ 1 / 10 ^ 8 + 1 / 10 ^ 5 * |SO2.hat v 0 1|) := by
  refine ⟨?_, ?_, ?_⟩
  · intro r u v
    ext i j; fin_cases i <;> fin_cases j <;> simp [SO2.hat]; ring
  · intro v
    have h : SO2.HatCheck (SO2.hat v) := by
      simp [SO2.HatCheck, SO2.hat, SO2.EPS, SO2.Allclose]; positivity
    unfold SO2.vee
    rw [if_pos h]
    congr 1
    ext i; fin_cases i; simp [SO2.hat]
  · intro M v h
    unfold SO2.vee at h
    split at h
    · rename_i hc
      obtain ⟨h1, h2, h3⟩ := hc
      have hv : v = ![M 1 0] := (Option.some.inj h).symm
      subst hv
      simp only [SO2.EPS, SO2.Allclose] at h1 h2 h3
      refine ⟨by simpa [SO2.hat] using h1, by simpa [SO2.hat] using h2, by simp [SO2.hat], ?_⟩
      simpa [SO2.hat] using h3
    · simp at h

/-- `SE2`: as for `SO2`, except that the last row of `M` is hardly checked
(`se2_vee_accepts_bad_last_row`). -/
theorem se2_hat_vee_partial :
    (∀ (r : ℝ) (u v : Fin 3 → ℝ), SE2.hat (r • u + v) = r • SE2.hat u + SE2.hat v) ∧
    (∀ v, SE2.vee (SE2.hat v) = some v) ∧
    (∀ M v, SE2.vee M = some v →
      |M 0 0 - SE2.hat v 0 0| < 1 / 10 ^ 10 ∧ |M 1 1 - SE2.hat v 1 1| < 1 / 10 ^ 10 ∧
      |M 2 2 - SE2.hat v 2 2| < 1 / 10 ^ 10 ∧
      M 1 0 = SE2.hat v 1 0 ∧ M 0 2 = SE2.hat v 0 2 ∧ M 1 2 = SE2.hat v 1 2 ∧
      |M 0 1 - SE2.hat v 0 1| ≤ 1 / 10 ^ 8 + 1 / 10 ^ 5 * |SE2.hat v 0 1|) := by
  refine ⟨?_, ?_, ?_⟩
  · intro r u v
    ext i j; fin_cases i <;> fin_cases j <;> simp [SE2.hat]; ring
  · intro v
    have h : SE2.HatCheck (SE2.hat v) := by
      simp [SE2.HatCheck, SE2.hat, SO2.EPS, SO2.Allclose]; positivity
    unfold SE2.vee
    rw [if_pos h]
    congr 1
    ext i; fin_cases i <;> simp [SE2.hat]
  · intro M v h
    unfold SE2.vee at h
    split at h
    · rename_i hc
      obtain ⟨h1, h2, h3, h4⟩ := hc
      have hv : v = ![M 0 2, M 1 2, M 1 0] := (Option.some.inj h).symm
      subst hv
      simp only [SO2.EPS, SO2.Allclose] at h1 h2 h3 h4
      refine ⟨by simpa [SE2.hat] using h2, by simpa [SE2.hat] using h3,
        by simpa [SE2.hat] using h4, by simp [SE2.hat], by simp [SE2.hat], by simp [SE2.hat], ?_⟩
      simpa [SE2.hat] using h1
    · simp at h

/-- The code violates "`hat(vee(M)) = M` on matrices passing the check": for every number `k`,
`vee` accepts a matrix with `k` in the last row, where every `hat` has 0. -/
theorem se2_vee_accepts_bad_last_row (k : ℝ) :
    ∃ M, (∃ v, SE2.vee M = some v) ∧ M 2 0 = k ∧ ∀ v, SE2.hat v 2 0 = 0 := by
  refine ⟨!![0, 0, 0; 0, 0, 0; k, 0, 0], ⟨![0, 0, 0], ?_⟩, by simp, fun v => by simp [SE2.hat]⟩
  have h : SE2.HatCheck !![0, 0, 0; 0, 0, 0; k, 0, 0] := by
    simp [SE2.HatCheck, SO2.EPS, SO2.Allclose]
  unfold SE2.vee
  rw [if_pos h]
  simp

/-! ## C48: local and retract -/

section
variable {n m : ℕ} {G : Type} {E : Embedding n m G} {L : Ops n G}

/-- `a.retract(a.local(b)) = b` wherever `exp_map(log_map(·))` gives the relative pose back. -/
theorem retract_local (h : E.Lawful L) {a b : G} (ha : E.valid a)
    (hr : L.exp (L.log (L.between a b)) = L.between a b) : L.retract a (L.local a b) = b := by
  rw [Ops.retract, Ops.local, hr, h.compose_between ha]

/-- `a.local(a.retract(d)) = d` wherever `log_map(exp_map(d)) = d`. -/
theorem local_retract (h : E.Lawful L) {a : G} (ha : E.valid a) {d : Fin n → ℝ}
    (hr : L.log (L.exp d) = d) : L.local a (L.retract a d) = d := by
  rw [Ops.local, Ops.retract, h.between_compose ha, hr]
end

/-- `Vector`: inverse of each other everywhere. -/
theorem vec_local_retract (n : ℕ) (a b d : Fin n → ℝ) :
    (Vec.ops n).retract a ((Vec.ops n).local a b) = b ∧
    (Vec.ops n).local a ((Vec.ops n).retract a d) = d ∧
    Vec.retract a d = (Vec.ops n).retract a d :=
  ⟨retract_local Vec.lawful trivial rfl, local_retract Vec.lawful trivial rfl, rfl⟩

/-- `SO2`: `retract` undoes `local` everywhere, and `local` undoes `retract` for angles in
`(-π, π]`. -/
theorem so2_local_retract (a b : SO2) (ha : a.c ^ 2 + a.s ^ 2 = 1) (hb : b.c ^ 2 + b.s ^ 2 = 1)
    (d : Fin 1 → ℝ) :
    SO2.ops.retract a (SO2.ops.local a b) = b ∧
    (-Real.pi < d 0 → d 0 ≤ Real.pi → SO2.ops.local a (SO2.ops.retract a d) = d) := by
  constructor
  · refine retract_local SO2.lawful ha ?_
    have hv : (SO2.ops.between a b).Valid :=
      SO2.lawful.compose_valid _ _ (SO2.lawful.inverse_valid _ ha) hb
    exact so2_exp_log.1 _ hv
  · intro h1 h2
    refine local_retract SO2.lawful ha ?_
    ext i; fin_cases i
    exact so2_exp_log.2.1 (d 0) h1 h2

/-- `SE2`: the same, for rotations other than π that are zero or beyond the small-angle
threshold.  (Below the threshold the round trip is approximate: `se2_exp_log_near`,
`se2_log_exp_near`.) -/
theorem se2_local_retract {eps deps : ℝ} (he : 0 < eps) (a b : SE2) (ha : a.c ^ 2 + a.s ^ 2 = 1)
    (hb : b.c ^ 2 + b.s ^ 2 = 1) (d : Fin 3 → ℝ) :
    ((a.inverse.compose b).rot.log ≠ Real.pi →
      (eps ≤ |(a.inverse.compose b).rot.log| ∨ (a.inverse.compose b).rot.log = 0) →
      (SE2.ops eps deps).retract a ((SE2.ops eps deps).local a b) = b) ∧
    (-Real.pi < d 2 → d 2 < Real.pi → (eps ≤ |d 2| ∨ d 2 = 0) →
      (SE2.ops eps deps).local a ((SE2.ops eps deps).retract a d) = d) := by
  have L := SE2.lawful (eps := eps) (deps := deps) he
  constructor
  · intro h1 h2
    refine retract_local L ha ?_
    exact se2_exp_log he _ (L.compose_valid _ _ (L.inverse_valid _ ha) hb) h1 h2
  · intro h1 h2 h3
    exact local_retract L ha (se2_log_exp he d h1 h2 h3)

/-! ## C49: Jacobians -/

/-- `J` is the Jacobian at `p` of a function of a point. -/
def HasPointJac {k : ℕ} (f : P2 → Fin k → ℝ) (p : P2) (J : Matrix (Fin k) (Fin 2) ℝ) : Prop :=
  ∀ δ : Fin 2 → ℝ, VecDeriv (fun t => f ⟨p.x + t * δ 0, p.y + t * δ 1⟩) (J *ᵥ δ)

/-- A point as a vector. -/
def P2.vec (p : P2) : Fin 2 → ℝ := ![p.x, p.y]

/-- Jacobians along a given curve are unique, so a matrix that differs from the Jacobian is not
a Jacobian. -/
theorem Embedding.HasJac.unique {n m k : ℕ} {G : Type} {E : Embedding n m G} {L : Ops n G}
    (h : E.Lawful L) {f : G → Fin k → ℝ} {g : G} (hg : E.valid g)
    {J J' : Matrix (Fin k) (Fin n) ℝ} (hJ : E.HasJac f g J) (hJ' : E.HasJac f g J') : J = J' := by
  ext i j
  have h1 := hJ.along_retract h hg (Pi.single j 1) i
  have h2 := hJ'.along_retract h hg (Pi.single j 1) i
  simpa using h1.unique h2

/-- The data of a curve in `SO2` and its derivatives. -/
theorem SO2.tangent_components {x : ℝ → SO2} {ξ : Fin 1 → ℝ} (h : SO2.emb.Tangent x ξ) :
    HasDerivAt (fun t => (x t).c) (-((x 0).s * ξ 0)) 0 ∧
    HasDerivAt (fun t => (x t).s) ((x 0).c * ξ 0) 0 := by
  obtain ⟨_, hd⟩ := h
  refine ⟨(hd 0 0).congr_deriv ?_, (hd 1 0).congr_deriv ?_⟩
  · simp [SO2.emb, SO2.toMatrix, SO2.hat, Matrix.mul_apply, Fin.sum_univ_two]
  · simp [SO2.emb, SO2.toMatrix, SO2.hat, Matrix.mul_apply, Fin.sum_univ_two]

/-- `SO2`: the Jacobian returned by `log_map` is right except at π, where the logarithm jumps. -/
theorem so2_log_jac {g : SO2} (_hg : g.c ^ 2 + g.s ^ 2 = 1) (hpi : g.log ≠ Real.pi) :
    SO2.emb.HasJac SO2.ops.log g (SO2.ops.dlog g) := by
  intro x ξ hx ht
  obtain ⟨hc, hs⟩ := SO2.tangent_components ht
  intro i
  fin_cases i
  have hv : (x 0).Valid := ht.1 0
  refine (hasDerivAt_atan2 hc hs (SO2.slit_of_log hv (by rw [hx]; exact hpi))).congr_deriv ?_
  unfold SO2.Valid at hv
  rw [hv]
  simp [SO2.ops, Matrix.mulVec, dotProduct]
  linear_combination ξ 0 * hv

/-- `SE2`: the Jacobian returned by `log_map` is right at every pose whose rotation angle is zero,
or at least the threshold and not π. -/
theorem se2_log_jac {eps deps : ℝ} (h0 : 0 < eps) (h01 : eps < deps) {g : SE2}
    (hg : g.c ^ 2 + g.s ^ 2 = 1)
    (h : (deps ≤ |g.rot.log| ∧ g.rot.log ≠ Real.pi) ∨ g.rot.log = 0) :
    SE2.emb.HasJac (SE2.ops eps deps).log g ((SE2.ops eps deps).dlog g) := by
  rcases h with ⟨h1, h2⟩ | h1
  · exact SE2.log_jac_far h01 h0.le hg h1 h2
  · exact SE2.log_jac_zero h0 (h0.trans h01) hg h1

theorem vec_log_jac {n : ℕ} (g : Fin n → ℝ) :
    (Vec.emb n).HasJac (Vec.ops n).log g ((Vec.ops n).dlog g) := by
  intro x ξ _ ht i
  have h := ht.2 i.castSucc (Fin.last n)
  have e : ((Vec.emb n).toMatrix (x 0) * (Vec.emb n).hat ξ) i.castSucc (Fin.last n) = ξ i := by
    simp only [Vec.emb, Matrix.add_mul, Vec.hat_mul_hat, Matrix.one_mul, add_zero]
    simp [Vec.hat]
  rw [e] at h
  have h' : HasDerivAt (fun t => x t i) (ξ i) 0 := by
    refine h.congr_of_eventuallyEq (Filter.Eventually.of_forall fun t => ?_)
    simp [Vec.emb, Vec.hat, Fin.castSucc_ne_last]
  simpa [Vec.ops] using h'

/-- `Between` on `SO2`: both Jacobians are the derivatives of the error, unless the measurement is
off by half a turn. -/
theorem so2_between_jac (v0 v1 meas : SO2) (h0 : v0.c ^ 2 + v0.s ^ 2 = 1)
    (h1 : v1.c ^ 2 + v1.s ^ 2 = 1) (hm : meas.c ^ 2 + meas.s ^ 2 = 1)
    (hpi : (SO2.ops.between meas (SO2.ops.between v0 v1)).log ≠ Real.pi) :
    SO2.emb.HasJac (fun g => SO2.ops.betweenError g v1 meas) v0
      (SO2.ops.betweenCostJac v0 v1 meas).1 ∧
    SO2.emb.HasJac (fun g => SO2.ops.betweenError v0 g meas) v1
      (SO2.ops.betweenCostJac v0 v1 meas).2 := by
  have L := SO2.lawful
  have hv : (SO2.ops.between meas (SO2.ops.between v0 v1)).Valid :=
    L.compose_valid _ _ (L.inverse_valid _ hm) (L.compose_valid _ _ (L.inverse_valid _ h0) h1)
  exact L.betweenCost_jac h0 h1 hm (so2_log_jac hv hpi)

/-- `Between` on `SE2`: both Jacobians are the derivatives of the error whenever the rotation
error is zero, or at least the threshold and not π. -/
theorem se2_between_jac_partial {eps deps : ℝ} (he : 0 < eps) (hed : eps < deps)
    (v0 v1 meas : SE2) (h0 : v0.c ^ 2 + v0.s ^ 2 = 1)
    (h1 : v1.c ^ 2 + v1.s ^ 2 = 1) (hm : meas.c ^ 2 + meas.s ^ 2 = 1)
    (h : (deps ≤ |((SE2.ops eps deps).between meas ((SE2.ops eps deps).between v0 v1)).rot.log| ∧
        ((SE2.ops eps deps).between meas ((SE2.ops eps deps).between v0 v1)).rot.log ≠ Real.pi) ∨
      ((SE2.ops eps deps).between meas ((SE2.ops eps deps).between v0 v1)).rot.log = 0) :
    SE2.emb.HasJac (fun g => (SE2.ops eps deps).betweenError g v1 meas) v0
      ((SE2.ops eps deps).betweenCostJac v0 v1 meas).1 ∧
    SE2.emb.HasJac (fun g => (SE2.ops eps deps).betweenError v0 g meas) v1
      ((SE2.ops eps deps).betweenCostJac v0 v1 meas).2 := by
  have L := SE2.lawful (eps := eps) (deps := deps) he
  have hv : ((SE2.ops eps deps).between meas ((SE2.ops eps deps).between v0 v1)).Valid :=
    L.compose_valid _ _ (L.inverse_valid _ hm) (L.compose_valid _ _ (L.inverse_valid _ h0) h1)
  exact L.betweenCost_jac h0 h1 hm (se2_log_jac he hed hv h)

/-- `Between` on `Vector`. -/
theorem vec_between_jac {n : ℕ} (v0 v1 meas : Fin n → ℝ) :
    (Vec.emb n).HasJac (fun g => (Vec.ops n).betweenError g v1 meas) v0
      ((Vec.ops n).betweenCostJac v0 v1 meas).1 ∧
    (Vec.emb n).HasJac (fun g => (Vec.ops n).betweenError v0 g meas) v1
      ((Vec.ops n).betweenCostJac v0 v1 meas).2 :=
  Vec.lawful.betweenCost_jac trivial trivial trivial (vec_log_jac _)

/-- `Local` on `SO2`, `SE2` and `Vector`, without the fast approximation. -/
theorem local_cost_jac_partial {eps deps : ℝ} (he : 0 < eps) (hed : eps < deps) :
    (∀ v t : SO2, v.c ^ 2 + v.s ^ 2 = 1 → t.c ^ 2 + t.s ^ 2 = 1 →
      (SO2.ops.between t v).log ≠ Real.pi →
      SO2.emb.HasJac (fun g => SO2.ops.localCostError g t) v (SO2.ops.localCostJac false v t)) ∧
    (∀ v t : SE2, v.c ^ 2 + v.s ^ 2 = 1 → t.c ^ 2 + t.s ^ 2 = 1 →
      ((deps ≤ |((SE2.ops eps deps).between t v).rot.log| ∧
        ((SE2.ops eps deps).between t v).rot.log ≠ Real.pi) ∨
        ((SE2.ops eps deps).between t v).rot.log = 0) →
      SE2.emb.HasJac (fun g => (SE2.ops eps deps).localCostError g t) v
        ((SE2.ops eps deps).localCostJac false v t)) ∧
    (∀ (n : ℕ) (v t : Fin n → ℝ),
      (Vec.emb n).HasJac (fun g => (Vec.ops n).localCostError g t) v
        ((Vec.ops n).localCostJac false v t)) := by
  have LS := SE2.lawful (eps := eps) (deps := deps) he
  refine ⟨?_, ?_, ?_⟩
  · intro v t hv ht hpi
    exact SO2.lawful.localCost_jac ht (so2_log_jac
      (SO2.lawful.compose_valid _ _ (SO2.lawful.inverse_valid _ ht) hv) hpi)
  · intro v t hv ht h
    exact LS.localCost_jac ht (se2_log_jac he hed
      (LS.compose_valid _ _ (LS.inverse_valid _ ht) hv) h)
  · intro n v t
    exact Vec.lawful.localCost_jac trivial (vec_log_jac _)

/-- `local`: both Jacobians, on `SE2` (the factors are multiplied in the order opposite to the
chain rule, which is harmless). -/
theorem se2_local_jac_partial {eps deps : ℝ} (he : 0 < eps) (hed : eps < deps) (a b : SE2)
    (ha : a.c ^ 2 + a.s ^ 2 = 1) (hb : b.c ^ 2 + b.s ^ 2 = 1)
    (h : (deps ≤ |((SE2.ops eps deps).between a b).rot.log| ∧
        ((SE2.ops eps deps).between a b).rot.log ≠ Real.pi) ∨
      ((SE2.ops eps deps).between a b).rot.log = 0) :
    SE2.emb.HasJac (fun g => (SE2.ops eps deps).local g b) a ((SE2.ops eps deps).localJac a b).1 ∧
    SE2.emb.HasJac (fun g => (SE2.ops eps deps).local a g) b
      ((SE2.ops eps deps).localJac a b).2 := by
  have L := SE2.lawful (eps := eps) (deps := deps) he
  have hv : ((SE2.ops eps deps).between a b).Valid :=
    L.compose_valid _ _ (L.inverse_valid _ ha) hb
  have hl := se2_log_jac he hed hv h
  exact ⟨L.local_jac_left ha hb hl (SE2.adjoint_dlog_comm hed he.le hv h), L.local_jac_right ha hl⟩

/-- `MovingFrameBetween` returns the Jacobians of the relative pose, not of the error: they are
right when the Jacobian of the logarithm is the identity, so on `SO2` and `Vector`. -/
theorem moving_frame_jac_partial {n m : ℕ} {G : Type} {E : Embedding n m G} {L : Ops n G}
    (h : E.Lawful L) {f1 f2 p1 p2 meas : G} (hf1 : E.valid f1)
    (hf2 : E.valid f2) (hp1 : E.valid p1) (hp2 : E.valid p2) (hm : E.valid meas)
    (hlog : E.HasJac L.log
      (L.between meas (L.between (L.between f1 p1) (L.between f2 p2))) 1) :
    E.HasJac (fun g => L.movingFrameError g f2 p1 p2 meas) f1 (L.movingFrameJac f1 f2 p1 p2).1 ∧
    E.HasJac (fun g => L.movingFrameError f1 g p1 p2 meas) f2 (L.movingFrameJac f1 f2 p1 p2).2.1 ∧
    E.HasJac (fun g => L.movingFrameError f1 f2 g p2 meas) p1
      (L.movingFrameJac f1 f2 p1 p2).2.2.1 ∧
    E.HasJac (fun g => L.movingFrameError f1 f2 p1 g meas) p2
      (L.movingFrameJac f1 f2 p1 p2).2.2.2 := by
  obtain ⟨j1, j2, j3, j4⟩ := h.movingFrame_jac hf1 hf2 hp1 hp2
  have hl : E.HasJac (fun g => L.local meas g)
      (L.between (L.between f1 p1) (L.between f2 p2)) 1 := by
    have := Embedding.HasJac.comp (f := fun g => L.between meas g) (f' := L.log) hlog
      (h.between_jac_right hm)
    simpa [Ops.betweenJac, Ops.composeJac, Ops.local] using this
  refine ⟨?_, ?_, ?_, ?_⟩
  · simpa [Ops.movingFrameError] using Embedding.HasJac.comp (f := fun g => L.between (L.between g p1) (L.between f2 p2))
      (f' := fun g => L.local meas g) hl j1
  · simpa [Ops.movingFrameError] using Embedding.HasJac.comp (f := fun g => L.between (L.between f1 p1) (L.between g p2))
      (f' := fun g => L.local meas g) hl j2
  · simpa [Ops.movingFrameError] using Embedding.HasJac.comp (f := fun g => L.between (L.between f1 g) (L.between f2 p2))
      (f' := fun g => L.local meas g) hl j3
  · simpa [Ops.movingFrameError] using Embedding.HasJac.comp (f := fun g => L.between (L.between f1 p1) (L.between f2 g))
      (f' := fun g => L.local meas g) hl j4

/-- The instance of `moving_frame_jac_partial` for `SO2`. -/
theorem so2_moving_frame_jac (f1 f2 p1 p2 meas : SO2) (hf1 : f1.c ^ 2 + f1.s ^ 2 = 1)
    (hf2 : f2.c ^ 2 + f2.s ^ 2 = 1) (hp1 : p1.c ^ 2 + p1.s ^ 2 = 1) (hp2 : p2.c ^ 2 + p2.s ^ 2 = 1)
    (hm : meas.c ^ 2 + meas.s ^ 2 = 1)
    (hpi : (SO2.ops.between meas (SO2.ops.between (SO2.ops.between f1 p1)
      (SO2.ops.between f2 p2))).log ≠ Real.pi) :
    SO2.emb.HasJac (fun g => SO2.ops.movingFrameError g f2 p1 p2 meas) f1
      (SO2.ops.movingFrameJac f1 f2 p1 p2).1 ∧
    SO2.emb.HasJac (fun g => SO2.ops.movingFrameError f1 g p1 p2 meas) f2
      (SO2.ops.movingFrameJac f1 f2 p1 p2).2.1 ∧
    SO2.emb.HasJac (fun g => SO2.ops.movingFrameError f1 f2 g p2 meas) p1
      (SO2.ops.movingFrameJac f1 f2 p1 p2).2.2.1 ∧
    SO2.emb.HasJac (fun g => SO2.ops.movingFrameError f1 f2 p1 g meas) p2
      (SO2.ops.movingFrameJac f1 f2 p1 p2).2.2.2 := by
  have L := SO2.lawful
  have hb1 := L.compose_valid _ _ (L.inverse_valid _ hf1) hp1
  have hb2 := L.compose_valid _ _ (L.inverse_valid _ hf2) hp2
  refine moving_frame_jac_partial L hf1 hf2 hp1 hp2 hm ?_
  have := so2_log_jac (L.compose_valid _ _ (L.inverse_valid _ hm)
    (L.compose_valid _ _ (L.inverse_valid _ hb1) hb2)) hpi
  have e : SO2.ops.dlog (SO2.ops.between meas (SO2.ops.between (SO2.ops.between f1 p1)
      (SO2.ops.between f2 p2))) = 1 := by
    ext i j; fin_cases i; fin_cases j; simp [SO2.ops]
  rw [← e]
  exact this

theorem SE2.log_trans {eps deps : ℝ} (he : 0 < eps) (hd : 0 < deps) :
    SE2.dlog eps deps ⟨1, 0, 1, 0⟩ = !![1, 0, 0; 0, 1, -1 / 2; 0, 0, 1] := by
  have h0 : (⟨1, 0, 1, 0⟩ : SE2).rot.log = 0 := by
    change Complex.arg ⟨1, 0⟩ = 0
    rw [Complex.arg_eq_zero_iff]; simp
  ext i j
  fin_cases i <;> fin_cases j <;> simp [SE2.dlog, SE2.log, SE2.logH, h0, he, hd]
  norm_num

theorem SE2.log_one_zero : (⟨1, 0, 1, 0⟩ : SE2).rot.log = 0 := by
  change Complex.arg ⟨1, 0⟩ = 0
  rw [Complex.arg_eq_zero_iff]; simp

/-- The code violates the property for `MovingFrameBetween` on `SE2`: with identity frames, first
pose and measurement, and the second pose at `(1, 0)` without rotation, the Jacobian returned for
the second pose is not the derivative of the error. -/
theorem se2_moving_frame_jac_wrong {eps deps : ℝ} (he : 0 < eps) (hed : eps < deps) :
    ¬ SE2.emb.HasJac
      (fun g => (SE2.ops eps deps).movingFrameError SE2.one SE2.one SE2.one g SE2.one)
      ⟨1, 0, 1, 0⟩
      ((SE2.ops eps deps).movingFrameJac SE2.one SE2.one SE2.one ⟨1, 0, 1, 0⟩).2.2.2 := by
  intro hbad
  have L := SE2.lawful (eps := eps) (deps := deps) he
  have hvalid : SE2.emb.valid (⟨1, 0, 1, 0⟩ : SE2) := by simp [SE2.emb, SE2.Valid]
  have hJ := se2_log_jac (eps := eps) (deps := deps) he hed (g := ⟨1, 0, 1, 0⟩) (by norm_num)
    (Or.inr SE2.log_one_zero)
  have e : (fun g => (SE2.ops eps deps).movingFrameError SE2.one SE2.one SE2.one g SE2.one)
      = (SE2.ops eps deps).log := by
    funext g
    have e1 : ∀ g : SE2, (SE2.ops eps deps).between SE2.one g = g := by
      intro g
      ext <;> simp [Ops.between, SE2.ops, SE2.compose, SE2.inverse, SE2.one, SE2.mk', SE2.rot,
        SE2.trans, SO2.compose, SO2.inverse, SO2.rotate, SO2.rotateFromCosSin]
    simp only [Ops.movingFrameError, Ops.local, e1]
  rw [e] at hbad
  have := Embedding.HasJac.unique L hvalid hbad hJ
  have h2 := congrFun (congrFun this 1) 2
  change _ = SE2.dlog eps deps ⟨1, 0, 1, 0⟩ 1 2 at h2
  rw [SE2.log_trans he (he.trans hed)] at h2
  simp [Ops.movingFrameJac, Ops.betweenJac, Ops.composeJac] at h2
  norm_num at h2

/-- The Jacobian returned by `Local` under `fast_approx_local_jacobians` is an approximation:
exact on `SO2` and `Vector`, wrong on `SE2` even without rotation. -/
theorem se2_local_fast_wrong {eps deps : ℝ} (he : 0 < eps) (hed : eps < deps) :
    ¬ SE2.emb.HasJac (fun g => (SE2.ops eps deps).localCostError g SE2.one) ⟨1, 0, 1, 0⟩
      ((SE2.ops eps deps).localCostJac true ⟨1, 0, 1, 0⟩ SE2.one) := by
  intro hbad
  have L := SE2.lawful (eps := eps) (deps := deps) he
  have hvalid : SE2.emb.valid (⟨1, 0, 1, 0⟩ : SE2) := by simp [SE2.emb, SE2.Valid]
  have hJ := se2_log_jac (eps := eps) (deps := deps) he hed (g := ⟨1, 0, 1, 0⟩) (by norm_num)
    (Or.inr SE2.log_one_zero)
  have e : (fun g => (SE2.ops eps deps).localCostError g SE2.one) = (SE2.ops eps deps).log := by
    funext g
    have e1 : ∀ g : SE2, (SE2.ops eps deps).between SE2.one g = g := by
      intro g
      ext <;> simp [Ops.between, SE2.ops, SE2.compose, SE2.inverse, SE2.one, SE2.mk', SE2.rot,
        SE2.trans, SO2.compose, SO2.inverse, SO2.rotate, SO2.rotateFromCosSin]
    simp only [Ops.localCostError, Ops.local, e1]
  rw [e] at hbad
  have := Embedding.HasJac.unique L hvalid hbad hJ
  have h2 := congrFun (congrFun this 1) 2
  change _ = SE2.dlog eps deps ⟨1, 0, 1, 0⟩ 1 2 at h2
  rw [SE2.log_trans he (he.trans hed)] at h2
  simp [Ops.localCostJac] at h2
  norm_num at h2

/-- `SO2.rotate` and `SO2.unrotate`: the Jacobians returned are the derivatives with respect to
the rotation and to the point. -/
theorem so2_rotate_jac (a : SO2) (p : P2) :
    SO2.emb.HasJac (fun g => (g.rotate p).vec) a (a.rotateJac p).1 ∧
    HasPointJac (fun q => (a.rotate q).vec) p (a.rotateJac p).2 ∧
    SO2.emb.HasJac (fun g => (g.unrotate p).vec) a (a.unrotateJac p).1 ∧
    HasPointJac (fun q => (a.unrotate q).vec) p (a.unrotateJac p).2 := by
  have hid := hasDerivAt_id (0 : ℝ)
  refine ⟨?_, ?_, ?_, ?_⟩
  · intro x ξ hx ht
    obtain ⟨hc, hs⟩ := SO2.tangent_components ht
    rw [hx] at hc hs
    intro i; fin_cases i
    · refine ((hc.mul_const p.x).sub (hs.mul_const p.y)).congr_deriv ?_
      simp [SO2.rotateJac, SO2.rotate, SO2.rotateFromCosSin, Matrix.mulVec, dotProduct]; ring
    · refine ((hs.mul_const p.x).add (hc.mul_const p.y)).congr_deriv ?_
      simp [SO2.rotateJac, SO2.rotate, SO2.rotateFromCosSin, Matrix.mulVec, dotProduct]; ring
  · intro δ i
    have h1 := (hid.mul_const (δ 0)).const_add p.x
    have h2 := (hid.mul_const (δ 1)).const_add p.y
    fin_cases i
    · refine ((h1.const_mul a.c).sub (h2.const_mul a.s)).congr_deriv ?_
      simp [SO2.rotateJac, SO2.toMatrix, Matrix.mulVec, dotProduct]; ring
    · refine ((h1.const_mul a.s).add (h2.const_mul a.c)).congr_deriv ?_
      simp [SO2.rotateJac, SO2.toMatrix, Matrix.mulVec, dotProduct]
  · intro x ξ hx ht
    obtain ⟨hc, hs⟩ := SO2.tangent_components ht
    rw [hx] at hc hs
    intro i; fin_cases i
    · refine ((hc.mul_const p.x).sub (hs.fun_neg.mul_const p.y)).congr_deriv ?_
      simp [SO2.unrotateJac, SO2.unrotate, SO2.rotateFromCosSin, Matrix.mulVec, dotProduct]; ring
    · refine ((hs.fun_neg.mul_const p.x).add (hc.mul_const p.y)).congr_deriv ?_
      simp [SO2.unrotateJac, SO2.unrotate, SO2.rotateFromCosSin, Matrix.mulVec, dotProduct]; ring
  · intro δ i
    have h1 := (hid.mul_const (δ 0)).const_add p.x
    have h2 := (hid.mul_const (δ 1)).const_add p.y
    fin_cases i
    · refine ((h1.const_mul a.c).sub (h2.const_mul (-a.s))).congr_deriv ?_
      simp [SO2.unrotateJac, SO2.toMatrix, Matrix.mulVec, dotProduct]
    · refine ((h1.const_mul (-a.s)).add (h2.const_mul a.c)).congr_deriv ?_
      simp [SO2.unrotateJac, SO2.toMatrix, Matrix.mulVec, dotProduct]

/-- `SE2.transform_from`, `SE2.transform_to`, `SE2.xy` and `SE2.theta`: the Jacobians returned are
the derivatives with respect to the pose and to the point. -/
theorem se2_transform_jac (a : SE2) (ha : a.c ^ 2 + a.s ^ 2 = 1) (p : P2) :
    SE2.emb.HasJac (fun g => (g.transformFrom p).vec) a (a.transformFromJac p).1 ∧
    HasPointJac (fun q => (a.transformFrom q).vec) p (a.transformFromJac p).2 ∧
    SE2.emb.HasJac (fun g => (g.transformTo p).vec) a (a.transformToJac p).1 ∧
    HasPointJac (fun q => (a.transformTo q).vec) p (a.transformToJac p).2 ∧
    SE2.emb.HasJac (fun g => g.trans.vec) a a.xyJac ∧
    (a.rot.log ≠ Real.pi → SE2.emb.HasJac (fun g => ![g.rot.log]) a a.thetaJac) := by
  have hid := hasDerivAt_id (0 : ℝ)
  refine ⟨?_, ?_, ?_, ?_, ?_, ?_⟩
  · intro x ξ hx ht
    obtain ⟨hc, hs, hX, hY⟩ := SE2.tangent_components ht
    rw [hx] at hc hs hX hY
    intro i; fin_cases i
    · refine (((hc.mul_const p.x).sub (hs.mul_const p.y)).add hX).congr_deriv ?_
      simp [SE2.transformFromJac, SO2.rotateFromCosSin, Matrix.mulVec, dotProduct,
        Fin.sum_univ_three]; ring
    · refine (((hs.mul_const p.x).add (hc.mul_const p.y)).add hY).congr_deriv ?_
      simp [SE2.transformFromJac, SO2.rotateFromCosSin, Matrix.mulVec, dotProduct,
        Fin.sum_univ_three]; ring
  · intro δ i
    have h1 := (hid.mul_const (δ 0)).const_add p.x
    have h2 := (hid.mul_const (δ 1)).const_add p.y
    fin_cases i
    · refine (((h1.const_mul a.c).sub (h2.const_mul a.s)).add_const a.x).congr_deriv ?_
      simp [SE2.transformFromJac, Matrix.mulVec, dotProduct]; ring
    · refine (((h1.const_mul a.s).add (h2.const_mul a.c)).add_const a.y).congr_deriv ?_
      simp [SE2.transformFromJac, Matrix.mulVec, dotProduct]
  · intro x ξ hx ht
    obtain ⟨hc, hs, hX, hY⟩ := SE2.tangent_components ht
    rw [hx] at hc hs hX hY
    intro i; fin_cases i
    · refine ((hc.fun_mul (hX.const_sub p.x)).sub
        (hs.fun_neg.fun_mul (hY.const_sub p.y))).congr_deriv ?_
      rw [hx]
      simp [SE2.transformToJac, SE2.transformTo, SO2.rotateFromCosSin, Matrix.mulVec, dotProduct,
        Fin.sum_univ_three]
      linear_combination (-ξ 0) * ha
    · refine ((hs.fun_neg.fun_mul (hX.const_sub p.x)).add
        (hc.fun_mul (hY.const_sub p.y))).congr_deriv ?_
      rw [hx]
      simp [SE2.transformToJac, SE2.transformTo, SO2.rotateFromCosSin, Matrix.mulVec, dotProduct,
        Fin.sum_univ_three]
      linear_combination (-ξ 1) * ha
  · intro δ i
    have h1 := ((hid.mul_const (δ 0)).const_add p.x).sub_const a.x
    have h2 := ((hid.mul_const (δ 1)).const_add p.y).sub_const a.y
    fin_cases i
    · refine ((h1.const_mul a.c).sub (h2.const_mul (-a.s))).congr_deriv ?_
      simp [SE2.transformToJac, Matrix.mulVec, dotProduct]
    · refine ((h1.const_mul (-a.s)).add (h2.const_mul a.c)).congr_deriv ?_
      simp [SE2.transformToJac, Matrix.mulVec, dotProduct]
  · intro x ξ hx ht
    obtain ⟨_, _, hX, hY⟩ := SE2.tangent_components ht
    rw [hx] at hX hY
    intro i; fin_cases i
    · refine hX.congr_deriv ?_
      simp [SE2.xyJac, Matrix.mulVec, dotProduct, Fin.sum_univ_three]; ring
    · refine hY.congr_deriv ?_
      simp [SE2.xyJac, Matrix.mulVec, dotProduct, Fin.sum_univ_three]
  · intro hpi x ξ hx ht
    have hθ := SE2.theta_deriv ht (by rw [hx]; exact hpi)
    intro i; fin_cases i
    refine hθ.congr_deriv ?_
    simp [SE2.thetaJac, Matrix.mulVec, dotProduct, Fin.sum_univ_three]

/-- `project`: the Euclidean gradient `g` of a function of the tensor entries is turned into the
gradient with respect to the tangent space: its product with any tangent vector is the derivative
along it. -/
theorem planar_project :
    (∀ (x : ℝ → SO2) (ξ : Fin 1 → ℝ) (g d : Fin 2 → ℝ), SO2.emb.Tangent x ξ →
      VecDeriv (fun t => ![(x t).c, (x t).s]) d → (x 0).project g ⬝ᵥ ξ = g ⬝ᵥ d) ∧
    (∀ (x : ℝ → SE2) (ξ : Fin 3 → ℝ) (g d : Fin 4 → ℝ), SE2.emb.Tangent x ξ →
      VecDeriv (fun t => ![(x t).x, (x t).y, (x t).c, (x t).s]) d →
      (x 0).project g ⬝ᵥ ξ = g ⬝ᵥ d) := by
  constructor
  · intro x ξ g d ht hd
    obtain ⟨hc, hs⟩ := SO2.tangent_components ht
    have h0 := (hd 0).unique hc
    have h1 := (hd 1).unique hs
    simp only [dotProduct, Fin.sum_univ_two, h0, h1, SO2.project, Fin.sum_univ_one]
    simp; ring
  · intro x ξ g d ht hd
    obtain ⟨hc, hs, hX, hY⟩ := SE2.tangent_components ht
    have h0 := (hd 0).unique hX
    have h1 := (hd 1).unique hY
    have h2 := (hd 2).unique hc
    have h3 := (hd 3).unique hs
    simp only [dotProduct, Fin.sum_univ_four, h0, h1, h2, h3, SE2.project, Fin.sum_univ_three]
    simp; ring

/-- `SE2.exp_map`: the Jacobian returned is the derivative for zero rotation and beyond the
small-angle threshold. -/
theorem se2_exp_jac_partial {eps : ℝ} (he : 0 < eps) (v : Fin 3 → ℝ)
    (h : eps < |v 2| ∨ v 2 = 0) : SE2.emb.HasTangentJac (SE2.exp eps) v (SE2.dexp eps v) := by
  intro δ
  refine ⟨fun t => Real.cos_sq_add_sin_sq _, ?_⟩
  have hid := hasDerivAt_id (0 : ℝ)
  have hlin : ∀ i, HasDerivAt (fun t : ℝ => v i + t * δ i) (δ i) 0 := fun i => by
    have := (hid.mul_const (δ i)).const_add (v i)
    simpa using this
  have hcos : HasDerivAt (fun t : ℝ => Real.cos (v 2 + t * δ 2)) (-(Real.sin (v 2) * δ 2)) 0 := by
    have := (hlin 2).cos
    simpa using this
  have hsin : HasDerivAt (fun t : ℝ => Real.sin (v 2 + t * δ 2)) (Real.cos (v 2) * δ 2) 0 := by
    have := (hlin 2).sin
    simpa using this
  have hcont : ContinuousAt (fun t : ℝ => |v 2 + t * δ 2|) 0 := (hlin 2).continuousAt.abs
  have key : ∃ A' B', HasDerivAt (fun t : ℝ => SE2.expA eps (v 2 + t * δ 2)) (A' * δ 2) 0 ∧
      HasDerivAt (fun t : ℝ => SE2.expB eps (v 2 + t * δ 2)) (B' * δ 2) 0 ∧
      (Real.cos (v 2) * SE2.expA eps (v 2) - Real.sin (v 2) * SE2.expB eps (v 2)
        = SE2.expA eps (v 2)) ∧
      (-(Real.cos (v 2) * SE2.expB eps (v 2)) - Real.sin (v 2) * SE2.expA eps (v 2)
        = SE2.expB eps (v 2)) ∧
      (∀ i, Real.cos (v 2) * SE2.dexp eps v 0 i - Real.sin (v 2) * SE2.dexp eps v 1 i
        = ![SE2.expA eps (v 2), SE2.expB eps (v 2), A' * v 0 + B' * v 1] i) ∧
      (∀ i, Real.sin (v 2) * SE2.dexp eps v 0 i + Real.cos (v 2) * SE2.dexp eps v 1 i
        = ![-SE2.expB eps (v 2), SE2.expA eps (v 2), A' * v 1 - B' * v 0] i) := by
    rcases h with hbig | h0
    · have hθ : v 2 ≠ 0 := by intro h0; rw [h0, abs_zero] at hbig; linarith
      have hn : ¬ |v 2| < eps := by linarith
      have hne : v 2 + 0 * δ 2 ≠ 0 := by simpa using hθ
      have hev : ∀ᶠ t : ℝ in nhds 0, eps < |v 2 + t * δ 2| :=
        continuousAt_const.eventually_lt hcont (by simpa using hbig)
      refine ⟨(Real.cos (v 2) * v 2 - Real.sin (v 2)) / v 2 ^ 2,
        (-Real.sin (v 2) * v 2 - (Real.cos (v 2) - 1)) / v 2 ^ 2, ?_, ?_, ?_, ?_, ?_, ?_⟩
      · refine ((hsin.fun_div (hlin 2) hne).congr_deriv ?_).congr_of_eventuallyEq ?_
        · simp; ring
        · filter_upwards [hev] with t ht
          simp [SE2.expA, not_lt.mpr ht.le]
      · refine (((hcos.sub_const 1).fun_div (hlin 2) hne).congr_deriv ?_).congr_of_eventuallyEq ?_
        · simp; ring
        · filter_upwards [hev] with t ht
          simp [SE2.expB, not_lt.mpr ht.le]
      · simp only [SE2.expA, SE2.expB, if_neg hn]; field_simp; ring
      · have hsc := Real.cos_sq_add_sin_sq (v 2)
        simp only [SE2.expA, SE2.expB, if_neg hn]; field_simp; linear_combination -hsc
      · have hsc := Real.cos_sq_add_sin_sq (v 2)
        intro i
        fin_cases i <;> simp [SE2.dexp, SE2.expA, SE2.expB, hn] <;> field_simp
        · ring
        · linear_combination -hsc
        · linear_combination v 1 * hsc
      · have hsc := Real.cos_sq_add_sin_sq (v 2)
        intro i
        fin_cases i <;> simp [SE2.dexp, SE2.expA, SE2.expB, hn] <;> field_simp
        · linear_combination hsc
        · ring
        · linear_combination -(v 0) * hsc
    · have hev : ∀ᶠ t : ℝ in nhds 0, |v 2 + t * δ 2| < eps :=
        hcont.eventually_lt continuousAt_const (by simpa [h0] using he)
      refine ⟨0, -1 / 2, ?_, ?_, ?_, ?_, ?_, ?_⟩
      · refine (((((hlin 2).fun_pow 2).div_const 6).const_sub 1).congr_deriv ?_).congr_of_eventuallyEq ?_
        · simp [h0]
        · filter_upwards [hev] with t ht
          rw [SE2.expA, if_pos ht]
      · refine ((((hlin 2).fun_neg.div_const 2).add (((hlin 2).fun_pow 3).div_const 24)).congr_deriv
          ?_).congr_of_eventuallyEq ?_
        · simp [h0]; ring
        · filter_upwards [hev] with t ht
          rw [SE2.expB, if_pos ht]
          rfl
      · simp [h0, SE2.expA, SE2.expB, he]
      · simp [h0, SE2.expA, SE2.expB, he]
      · intro i; fin_cases i <;> simp [h0, SE2.dexp, SE2.expA, SE2.expB, he]
      · intro i; fin_cases i <;> simp [h0, SE2.dexp, SE2.expA, SE2.expB, he]
  obtain ⟨A', B', hA, hB, _, _, kx, ky⟩ := key
  have hx : HasDerivAt (fun t : ℝ => SE2.expA eps (v 2 + t * δ 2) * (v 0 + t * δ 0) +
      SE2.expB eps (v 2 + t * δ 2) * (v 1 + t * δ 1))
      (SE2.expA eps (v 2) * δ 0 + SE2.expB eps (v 2) * δ 1 + (A' * v 0 + B' * v 1) * δ 2) 0 := by
    refine ((hA.fun_mul (hlin 0)).add (hB.fun_mul (hlin 1))).congr_deriv ?_
    simp; ring
  have hy : HasDerivAt (fun t : ℝ => SE2.expA eps (v 2 + t * δ 2) * (v 1 + t * δ 1) -
      SE2.expB eps (v 2 + t * δ 2) * (v 0 + t * δ 0))
      (-SE2.expB eps (v 2) * δ 0 + SE2.expA eps (v 2) * δ 1 + (A' * v 1 - B' * v 0) * δ 2) 0 := by
    refine ((hA.fun_mul (hlin 1)).sub (hB.fun_mul (hlin 0))).congr_deriv ?_
    simp; ring
  have kx0 := kx 0; have kx1 := kx 1; have kx2 := kx 2
  have ky0 := ky 0; have ky1 := ky 1; have ky2 := ky 2
  simp only [Matrix.cons_val_zero, Matrix.cons_val_one, Matrix.cons_val] at kx0 kx1 kx2 ky0 ky1 ky2
  have h2 : SE2.dexp eps v 2 = ![0, 0, 1] := by
    funext i; fin_cases i <;> simp [SE2.dexp]
  intro i j
  fin_cases i <;> fin_cases j
  · refine hcos.congr_deriv ?_
    simp [SE2.emb, SE2.toMatrix, SE2.exp, SE2.mk', SO2.exp, SE2.hat, Matrix.mul_apply,
      Fin.sum_univ_three, Matrix.mulVec, h2, dotProduct]
  · refine hsin.fun_neg.congr_deriv ?_
    simp [SE2.emb, SE2.toMatrix, SE2.exp, SE2.mk', SO2.exp, SE2.hat, Matrix.mul_apply,
      Fin.sum_univ_three, Matrix.mulVec, h2, dotProduct]
  · refine hx.congr_deriv ?_
    simp only [SE2.emb, SE2.toMatrix, SE2.exp, SE2.mk', SO2.exp, SE2.hat, Matrix.mul_apply,
      Fin.sum_univ_three, Matrix.mulVec, dotProduct]
    simp
    linear_combination -δ 0 * kx0 - δ 1 * kx1 - δ 2 * kx2
  · refine hsin.congr_deriv ?_
    simp [SE2.emb, SE2.toMatrix, SE2.exp, SE2.mk', SO2.exp, SE2.hat, Matrix.mul_apply,
      Fin.sum_univ_three, Matrix.mulVec, h2, dotProduct]
  · refine hcos.congr_deriv ?_
    simp [SE2.emb, SE2.toMatrix, SE2.exp, SE2.mk', SO2.exp, SE2.hat, Matrix.mul_apply,
      Fin.sum_univ_three, Matrix.mulVec, h2, dotProduct]
  · refine hy.congr_deriv ?_
    simp only [SE2.emb, SE2.toMatrix, SE2.exp, SE2.mk', SO2.exp, SE2.hat, Matrix.mul_apply,
      Fin.sum_univ_three, Matrix.mulVec, dotProduct]
    simp
    linear_combination -δ 0 * ky0 - δ 1 * ky1 - δ 2 * ky2
  all_goals
    refine (hasDerivAt_const (0 : ℝ) _).congr_deriv ?_
    simp [SE2.emb, SE2.toMatrix, SE2.exp, SE2.mk', SO2.exp, SE2.hat, Matrix.mul_apply,
      Fin.sum_univ_three]

/-- The code violates the property in the small-angle branch: the third column uses
`θ - θ³/120` where `θ/6 - θ³/120` is meant, so the Jacobian returned at `(1, 0, θ)` is wrong for
every non-zero `θ` below the threshold. -/
theorem se2_exp_jac_wrong {eps θ : ℝ} (h0 : 0 < θ) (h1 : θ < eps) (h2 : eps ≤ 1) :
    ¬ SE2.emb.HasTangentJac (SE2.exp eps) ![1, 0, θ] (SE2.dexp eps ![1, 0, θ]) := by
  intro hbad
  have habs : |θ| < eps := by rw [abs_of_pos h0]; exact h1
  have h3 := (hbad ![0, 0, 1]).2 0 2
  have hlin : HasDerivAt (fun t : ℝ => θ + t) 1 0 := by
    simpa using (hasDerivAt_id (0 : ℝ)).const_add θ
  have hcont : ContinuousAt (fun t : ℝ => |θ + t|) 0 := hlin.continuousAt.abs
  have hev : ∀ᶠ t : ℝ in nhds 0, |θ + t| < eps :=
    hcont.eventually_lt continuousAt_const (by simpa using habs)
  have h4 : HasDerivAt (fun t : ℝ => SE2.emb.toMatrix
      (SE2.exp eps (![1, 0, θ] + t • ![0, 0, 1])) 0 2) (-θ / 3) 0 := by
    refine ((((hlin.fun_pow 2).div_const 6).const_sub 1).congr_deriv ?_).congr_of_eventuallyEq ?_
    · simp; ring
    · filter_upwards [hev] with t ht
      have e2 : (![1, 0, θ] + t • ![0, 0, 1] : Fin 3 → ℝ) = ![1, 0, θ + t] := by
        ext i; fin_cases i <;> simp
      rw [e2]
      simp [SE2.emb, SE2.toMatrix, SE2.exp, SE2.mk', SE2.expA, ht]
  have h5 := h3.unique h4
  simp [SE2.emb, SE2.toMatrix, SE2.exp, SE2.mk', SO2.exp, SE2.hat, SE2.dexp, habs,
    Matrix.mul_apply, Fin.sum_univ_three] at h5
  have hc := Real.one_sub_sq_div_two_le_cos (x := θ)
  have hs : Real.sin θ ≤ θ := Real.sin_le h0.le
  have hs0 : 0 ≤ Real.sin θ := Real.sin_nonneg_of_nonneg_of_le_pi h0.le
    (by linarith [Real.pi_gt_three])
  have hθ1 : θ < 1 := by linarith
  have hc2 : 1 / 2 ≤ Real.cos θ := by nlinarith
  have hp : θ * (119 / 120) ≤ θ - θ ^ 3 / 120 := by nlinarith [mul_pos h0 h0, mul_pos (mul_pos h0 h0) h0]
  have hp0 : 0 ≤ θ - θ ^ 3 / 120 := le_trans (by positivity) hp
  have hcp : 1 / 2 * (θ * (119 / 120)) ≤ Real.cos θ * (θ - θ ^ 3 / 120) :=
    mul_le_mul hc2 hp (by positivity) (by linarith)
  have hsq : -(1 / 2) * θ ≤ Real.sin θ * (-1 / 2 + θ ^ 2 / 24) := by nlinarith [sq_nonneg θ]
  nlinarith

/-- Non-vacuity: a measurement off by a quarter turn meets the hypotheses of the `SE2` theorems
with the thresholds of the library. -/
example : ∃ v0 v1 meas : SE2, v0.c ^ 2 + v0.s ^ 2 = 1 ∧ v1.c ^ 2 + v1.s ^ 2 = 1 ∧
    meas.c ^ 2 + meas.s ^ 2 = 1 ∧
    ((1 / 100 : ℝ) ≤ |((SE2.ops (1 / 200) (1 / 100)).between meas
      ((SE2.ops (1 / 200) (1 / 100)).between v0 v1)).rot.log| ∧
    ((SE2.ops (1 / 200) (1 / 100)).between meas
      ((SE2.ops (1 / 200) (1 / 100)).between v0 v1)).rot.log ≠ Real.pi) := by
  have e : ((SE2.ops (1 / 200) (1 / 100)).between SE2.one
      ((SE2.ops (1 / 200) (1 / 100)).between ⟨1, 2, 1, 0⟩ ⟨3, 4, 0, 1⟩)).rot.log = Real.pi / 2 := by
    have : ((SE2.ops (1 / 200) (1 / 100)).between SE2.one
      ((SE2.ops (1 / 200) (1 / 100)).between ⟨1, 2, 1, 0⟩ ⟨3, 4, 0, 1⟩)).rot = ⟨0, 1⟩ := by
      ext <;> simp [Ops.between, SE2.ops, SE2.compose, SE2.inverse, SE2.one, SE2.mk', SE2.rot,
        SO2.compose, SO2.inverse]
    rw [this]; exact Complex.arg_I
  refine ⟨⟨1, 2, 1, 0⟩, ⟨3, 4, 0, 1⟩, SE2.one, by norm_num, by norm_num, by simp [SE2.one], ?_, ?_⟩
  · rw [e, abs_of_pos (by positivity)]; linarith [Real.pi_gt_three]
  · rw [e]; intro h'; linarith [Real.pi_gt_three]

end Verif.Geometry
