import Verif.Geometry.SE3More
import Verif.Geometry.SO3Jlog
import Verif.Geometry.SO3Pi

/-!
# The near-π branch of the logarithms computes the same function as the main branch

Below half a turn the branch `near_pi` of `_log_impl_helper` (so3_impl.py L411-431) returns the exact
logarithm, except for rotations about the two axes `(0, ±1, ±1)/√2`, where it divides zero by zero.
-/

namespace Verif.Geometry
open Matrix
namespace SO3

/-- The logarithm is computed by the main branch, or by the near-π branch below half a turn and not about
one of the axes at which that branch divides by zero. -/
def BranchOk (epi : ℝ) (R : M3) : Prop :=
  epi < 1 + cosine R ∨ (cosine R ≠ -1 ∧ ¬ TieAxis R)

theorem Valid.cosine_ge {R : M3} (h : Valid R) : -1 ≤ cosine R := by
  have := h.unit'
  nlinarith [sq_nonneg (sine R)]

theorem Valid.cosine_ne_one {R : M3} (h : Valid R) (h0 : 0 < theta R) : cosine R ≠ 1 := by
  intro hc
  have := h.cos_theta
  rw [hc] at this
  have hU := h.unit'
  rw [hc] at hU
  have hs : sine R = 0 := by nlinarith
  have ht : theta R = 0 := by
    rw [theta, hs, hc]; change Complex.arg ⟨1, 0⟩ = 0
    rw [Complex.arg_eq_zero_iff]; simp
  linarith

/-- The branch does not matter. -/
theorem log_branch {eps epi : ℝ} (he : 0 < eps) {R : M3} (hv : Valid R)
    (h1 : eps ≤ theta R) (hp : BranchOk epi R) (hpi : 0 ≤ epi) : log eps epi R = log eps 0 R := by
  have hpos : 0 < theta R := lt_of_lt_of_le he h1
  have hge := hv.cosine_ge
  rcases hp with hp | ⟨hc, ht⟩
  · rw [log, log, if_neg (not_le.mpr hp), if_neg (by linarith), logScale, logScale, if_neg, if_neg]
    · rintro (h | h) <;> linarith
    · rintro (h | h) <;> linarith
  · have hlt : 0 < 1 + cosine R := by
      have : -1 < cosine R := lt_of_le_of_ne hge (Ne.symm hc)
      linarith
    by_cases hb : epi < 1 + cosine R
    · rw [log, log, if_neg (not_le.mpr hb), if_neg (by linarith), logScale, logScale, if_neg, if_neg]
      · rintro (h | h) <;> linarith
      · rintro (h | h) <;> linarith
    · have hn := norm_log_far he le_rfl hv h1 hlt
      have hx := exp_log_far he le_rfl hv h1 hlt
      have hcos := hv.cos_theta
      have hle : theta R ≤ Real.pi := by
        rw [theta]; exact Complex.arg_le_pi _
      have hltpi : theta R < Real.pi := by
        refine lt_of_le_of_ne hle fun e => hc ?_
        rw [← hcos, e, Real.cos_pi]
      have hrow : selRow (exp eps (log eps 0 R)) ≠ 0 := by
        rw [hx]; exact selRow_ne_zero hv (hv.cosine_ne_one hpos) ht
      have := (log_exp_pi (epi := epi) he (by rw [hn]; exact h1) (by rw [hn]; exact hle)
        (by rw [hn, hcos]; exact not_lt.mp hb) hrow).1 (by rw [hn]; exact hltpi)
      rwa [hx] at this

theorem BranchOk.pos {epi : ℝ} {R : M3} (h : BranchOk epi R) (hv : Valid R) (hpi : 0 ≤ epi) :
    0 < 1 + cosine R := by
  rcases h with h | ⟨h, -⟩
  · linarith
  · have : -1 < cosine R := lt_of_le_of_ne hv.cosine_ge (Ne.symm h)
    linarith

theorem jlog_branch {eps deps epi : ℝ} (he : 0 < eps) {R : M3} (hv : Valid R)
    (h1 : eps ≤ theta R) (hp : BranchOk epi R) (hpi : 0 ≤ epi) :
    jlog eps deps epi R = jlog eps deps 0 R := by
  rw [jlog, jlog, log_branch he hv h1 hp hpi]

theorem branch_eventually {epi : ℝ} {x : ℝ → M3} {ξ : V3} (ht : emb.Tangent x ξ)
    (hp : BranchOk epi (x 0)) : ∀ᶠ t in nhds 0, BranchOk epi (x t) := by
  have hc' := (axis_deriv ht).2.continuousAt
  have hij : ∀ i j, ContinuousAt (fun t => x t i j) 0 := fun i j => (ht.2 i j).continuousAt
  rcases hp with hp | ⟨h1, h2⟩
  · have : ∀ᶠ t in nhds 0, epi < 1 + cosine (x t) :=
      continuousAt_const.eventually_lt (continuousAt_const.add hc') hp
    exact this.mono fun t h => Or.inl h
  · have e1 : ∀ᶠ t in nhds 0, cosine (x t) ≠ -1 := hc'.eventually_ne h1
    have hv : ∀ w : V3, ContinuousAt (fun t => x t *ᵥ w) 0 := fun w =>
      continuousAt_pi.mpr fun i => by
        simp only [Matrix.mulVec, dotProduct, Fin.sum_univ_three]
        exact (((hij i 0).mul continuousAt_const).add ((hij i 1).mul continuousAt_const)).add
          ((hij i 2).mul continuousAt_const)
    rw [TieAxis, not_or] at h2
    have e2 : ∀ᶠ t in nhds 0, ¬ TieAxis (x t) := by
      filter_upwards [(hv ![0, 1, 1]).eventually_ne h2.1, (hv ![0, 1, -1]).eventually_ne h2.2] with t a b
      rintro (h | h)
      · exact a h
      · exact b h
    filter_upwards [e1, e2] with t a b using Or.inr ⟨a, b⟩

/-- The Jacobian of the logarithm from the thresholds up to half a turn. -/
theorem log_jac_branch {eps deps epi : ℝ} (he : 0 < eps) (hpi : 0 ≤ epi) {R : M3} (hR : Valid R)
    (h1 : eps < theta R) (hd1 : deps ≤ theta R) (hp : BranchOk epi R) :
    emb.HasJac (ops eps deps epi).log R ((ops eps deps epi).dlog R) := by
  have hpos := hp.pos hR hpi
  have key := log_jac_far (deps := deps) he le_rfl hR h1 hd1 hpos
  have e : (ops eps deps epi).dlog R = (ops eps deps 0).dlog R := jlog_branch he hR h1.le hp hpi
  rw [e]
  intro x ξ hx ht i
  have h0 : 0 < theta R := he.trans h1
  have hs := hR.sine_pos h0 (by linarith)
  have hθ' := theta_deriv ht (by rw [hx]; exact hs) (by rw [hx]; exact hpos.ne')
  have e1 : ∀ᶠ t in nhds 0, eps < theta (x t) :=
    continuousAt_const.eventually_lt hθ'.continuousAt (by rw [hx]; exact h1)
  refine (key x ξ hx ht i).congr_of_eventuallyEq ?_
  filter_upwards [e1, branch_eventually ht (by rw [hx]; exact hp)] with t a b
  change log eps epi (x t) i = log eps 0 (x t) i
  rw [log_branch he (ht.1 t) a.le b hpi]

theorem adjoint_dlog_comm_branch {eps deps epi : ℝ} (he : 0 < eps) (hpi : 0 ≤ epi) {R : M3} (hR : Valid R)
    (h1 : eps ≤ theta R) (hp : BranchOk epi R) :
    (ops eps deps epi).adjoint ((ops eps deps epi).inverse R) * (ops eps deps epi).dlog R
      = (ops eps deps epi).dlog R * (ops eps deps epi).adjoint ((ops eps deps epi).inverse R) := by
  have e : (ops eps deps epi).dlog R = (ops eps deps 0).dlog R := jlog_branch he hR h1 hp hpi
  rw [e]
  exact adjoint_dlog_comm le_rfl hR (hp.pos hR hpi)

end SO3

namespace SE3

theorem adjoint_dlog_comm_branch {eps deps epi : ℝ} (he : 0 < eps) (hpi : 0 ≤ epi) {g : SE3}
    (hg : Valid g) (h1 : eps < SO3.theta g.R) (hd1 : deps ≤ SO3.theta g.R) (hp : SO3.BranchOk epi g.R) :
    adjoint (inverse g) * jlog eps deps epi g = jlog eps deps epi g * adjoint (inverse g) := by
  simp only [jlog]
  have e : log eps epi g = log eps 0 g := by
    simp only [log]; rw [SO3.log_branch he hg h1.le hp hpi]
  rw [e]
  exact adjoint_dlog_comm_far he le_rfl hg h1 hd1 (hp.pos hg hpi)

theorem log_branch {eps epi : ℝ} (he : 0 < eps) {g : SE3} (hv : Valid g)
    (h1 : eps ≤ SO3.theta g.R) (hp : SO3.BranchOk epi g.R) (hpi : 0 ≤ epi) :
    log eps epi g = log eps 0 g := by
  simp only [log]
  rw [SO3.log_branch he hv h1 hp hpi]

theorem jlog_branch {eps deps epi : ℝ} (he : 0 < eps) {g : SE3} (hv : Valid g)
    (h1 : eps ≤ SO3.theta g.R) (hp : SO3.BranchOk epi g.R) (hpi : 0 ≤ epi) :
    jlog eps deps epi g = jlog eps deps 0 g := by
  simp only [jlog]
  rw [log_branch he hv h1 hp hpi]

/-- The Jacobian of the logarithm from the thresholds up to half a turn. -/
theorem log_jac_branch {eps deps epi : ℝ} (he : 0 < eps) (hpi : 0 ≤ epi) {g : SE3} (hg : Valid g)
    (h1 : eps < SO3.theta g.R) (hd1 : deps ≤ SO3.theta g.R) (hp : SO3.BranchOk epi g.R) :
    emb.HasJac (ops eps deps epi).log g ((ops eps deps epi).dlog g) := by
  have hpos := hp.pos hg hpi
  have key := log_jac_far (deps := deps) he le_rfl hg h1 hd1 hpos
  have e : (ops eps deps epi).dlog g = (ops eps deps 0).dlog g := jlog_branch he hg h1.le hp hpi
  rw [e]
  intro x ξ hx ht i
  have hrot := tangent_rot ht
  have h0 : 0 < SO3.theta g.R := he.trans h1
  have hs := SO3.Valid.sine_pos hg h0 (by linarith)
  have hθ' := SO3.theta_deriv hrot (by rw [hx]; exact hs) (by rw [hx]; exact hpos.ne')
  have e1 : ∀ᶠ t in nhds 0, eps < SO3.theta (x t).R :=
    continuousAt_const.eventually_lt hθ'.continuousAt (by rw [hx]; exact h1)
  refine (key x ξ hx ht i).congr_of_eventuallyEq ?_
  filter_upwards [e1, SO3.branch_eventually hrot (by rw [hx]; exact hp)] with t a b
  change log eps epi (x t) i = log eps 0 (x t) i
  rw [log_branch he (ht.1 t) a.le b hpi]

end SE3
end Verif.Geometry
