import Verif.Conv.Spec
import Verif.Layer.LinOptProps
import Mathlib.Analysis.Calculus.Deriv.MeanValue
import Mathlib.Analysis.Calculus.Deriv.Prod
import Mathlib.Analysis.Calculus.Deriv.Pow
import Mathlib.Analysis.Calculus.Deriv.Mul
/-!
# One step of Gauss–Newton or Levenberg–Marquardt near a solution
-/
namespace Verif.Conv
open Matrix Verif.Steps Verif.Layer
variable {p d : Nat}

/-! ### The Euclidean norm -/

theorem nrm_eq {k : Nat} (v : Fin k → ℝ) : nrm v = ‖(WithLp.toLp 2 v : EuclideanSpace ℝ (Fin k))‖ := by
  rw [EuclideanSpace.norm_eq]
  unfold nrm
  congr 1
  exact Finset.sum_congr rfl fun i _ => by simp

theorem nrm_nonneg {k : Nat} (v : Fin k → ℝ) : 0 ≤ nrm v := Real.sqrt_nonneg _

theorem nrm_sq {k : Nat} (v : Fin k → ℝ) : nrm v ^ 2 = v ⬝ᵥ v := by
  unfold nrm
  rw [Real.sq_sqrt (Finset.sum_nonneg fun i _ => sq_nonneg _)]
  exact Finset.sum_congr rfl fun i _ => by ring

theorem nrm_add {k : Nat} (v w : Fin k → ℝ) : nrm (v + w) ≤ nrm v + nrm w := by
  simp only [nrm_eq, WithLp.toLp_add]
  exact norm_add_le _ _

theorem nrm_smul {k : Nat} (a : ℝ) (v : Fin k → ℝ) : nrm (a • v) = |a| * nrm v := by
  simp only [nrm_eq, WithLp.toLp_smul, norm_smul, Real.norm_eq_abs]

theorem nrm_neg {k : Nat} (v : Fin k → ℝ) : nrm (-v) = nrm v := by
  simp only [nrm_eq, WithLp.toLp_neg, norm_neg]

theorem nrm_sub_comm {k : Nat} (v w : Fin k → ℝ) : nrm (v - w) = nrm (w - v) := by
  rw [← nrm_neg, neg_sub]

theorem nrm_zero {k : Nat} : nrm (0 : Fin k → ℝ) = 0 := by simp [nrm]

theorem nrm_eq_zero {k : Nat} {v : Fin k → ℝ} : nrm v = 0 ↔ v = 0 := by
  rw [nrm_eq, norm_eq_zero]
  constructor
  · intro h; exact (WithLp.toLp_injective 2) h
  · rintro rfl; rfl

theorem dot_le {k : Nat} (v w : Fin k → ℝ) : v ⬝ᵥ w ≤ nrm v * nrm w := by
  have h := real_inner_le_norm (WithLp.toLp 2 v : EuclideanSpace ℝ (Fin k)) (WithLp.toLp 2 w)
  rw [← nrm_eq, ← nrm_eq] at h
  refine le_trans (le_of_eq ?_) h
  rw [EuclideanSpace.inner_toLp_toLp, star_trivial, dotProduct_comm]

/-! ### Taylor's formula -/

theorem taylor {pr : Prob p d} {xs : Fin d → ℝ} {L ρ : ℝ} (h : Smooth pr xs L ρ) (hL : 0 ≤ L) {x : Fin d → ℝ}
    (hx : nrm (x - xs) < ρ) :
    nrm (pr.r xs - pr.r x - pr.J x *ᵥ (xs - x)) ≤ L / 2 * nrm (x - xs) ^ 2 := by
  set u := xs - x with hu
  set w := pr.r xs - pr.r x - pr.J x *ᵥ u with hw
  have hun : nrm u = nrm (x - xs) := nrm_sub_comm _ _
  -- along the segment
  have hseg : ∀ t : ℝ, t ∈ Set.Icc (0 : ℝ) 1 → nrm (x + t • u - xs) < ρ := by
    intro t ht
    have e : x + t • u - xs = (1 - t) • (x - xs) := by
      rw [hu]; funext i; simp; ring
    rw [e, nrm_smul, abs_of_nonneg (by linarith [ht.2])]
    have := nrm_nonneg (x - xs)
    nlinarith [ht.1, ht.2]
  have hder : ∀ t : ℝ, t ∈ Set.Icc (0 : ℝ) 1 →
      HasDerivAt (fun t : ℝ => w ⬝ᵥ pr.r (x + t • u)) (w ⬝ᵥ (pr.J (x + t • u) *ᵥ u)) t := by
    intro t ht
    have h1 : HasDerivAt (fun t : ℝ => x + t • u) u t := by
      simpa using ((hasDerivAt_id t).smul_const u).const_add x
    have h2 := (h.deriv _ (hseg t ht)).comp_hasDerivAt t h1
    have h3 := hasDerivAt_pi.1 h2
    unfold dotProduct
    refine HasDerivAt.fun_sum fun i _ => ?_
    have := (h3 i).const_mul (w i)
    simpa using this
  set g : ℝ → ℝ := fun t => w ⬝ᵥ pr.r (x + t • u) - t * (w ⬝ᵥ (pr.J x *ᵥ u)) - nrm w * L * nrm u ^ 2 * (t ^ 2 / 2)
  have hg : ∀ t ∈ Set.Icc (0 : ℝ) 1, HasDerivAt g
      (w ⬝ᵥ (pr.J (x + t • u) *ᵥ u) - w ⬝ᵥ (pr.J x *ᵥ u) - nrm w * L * nrm u ^ 2 * t) t := by
    intro t ht
    have h1 := hder t ht
    have h2 := (hasDerivAt_id t).mul_const (w ⬝ᵥ (pr.J x *ᵥ u))
    have h3 := (((hasDerivAt_id t).pow 2).div_const 2).const_mul (nrm w * L * nrm u ^ 2)
    refine ((h1.sub h2).sub h3).congr_deriv ?_
    simp
  have hanti : AntitoneOn g (Set.Icc 0 1) := by
    refine antitoneOn_of_deriv_nonpos (convex_Icc 0 1) (fun t ht => (hg t ht).continuousAt.continuousWithinAt)
      (fun t ht => (hg t (interior_subset ht)).differentiableAt.differentiableWithinAt) ?_
    intro t ht
    have ht' := interior_subset ht
    rw [(hg t ht').deriv]
    have h0 : nrm (x - xs) < ρ := hx
    have h1 := h.lip (x + t • u) x (hseg t ht') h0 u
    have e : x + t • u - x = t • u := by abel
    rw [e, nrm_smul, abs_of_nonneg ht'.1, sub_mulVec] at h1
    have h2 := dot_le w (pr.J (x + t • u) *ᵥ u - pr.J x *ᵥ u)
    rw [dotProduct_sub] at h2
    have h3 := mul_le_mul_of_nonneg_left h1 (nrm_nonneg w)
    nlinarith
  have h01 := hanti (Set.left_mem_Icc.2 zero_le_one) (Set.right_mem_Icc.2 zero_le_one) zero_le_one
  have e1 : x + (1 : ℝ) • u = xs := by rw [hu, one_smul]; abel
  have e0 : x + (0 : ℝ) • u = x := by rw [zero_smul, add_zero]
  simp only [g] at h01
  rw [e1, e0] at h01
  have hww : nrm w ^ 2 = w ⬝ᵥ pr.r xs - w ⬝ᵥ pr.r x - w ⬝ᵥ (pr.J x *ᵥ u) := by
    rw [nrm_sq]
    conv_lhs => rhs; rw [hw]
    rw [dotProduct_sub, dotProduct_sub]
  have h2 : nrm w ^ 2 ≤ nrm w * (L / 2 * nrm u ^ 2) := by rw [hww]; nlinarith
  rw [← hun]
  rcases (nrm_nonneg w).eq_or_lt with hz | hz
  · rw [← hz]; positivity
  · rw [pow_two] at h2
    exact le_of_mul_le_mul_left h2 hz

/-! ### One step -/

/-- The distance of the new value from a stationary point, for a step that solves the damped normal
equations. -/
theorem step_bound {A As : Matrix (Fin p) (Fin d) ℝ} {r rs : Fin p → ℝ} {e q : Fin d → ℝ} {lam m M L : ℝ}
    (hst : Asᵀ *ᵥ rs = 0)
    (heq : (Aᵀ * A + lam • (1 : Matrix (Fin d) (Fin d) ℝ)) *ᵥ (q - e) = Aᵀ *ᵥ (-r))
    (hlam : 0 ≤ lam) (hm : 0 ≤ m) (hM0 : 0 ≤ M) (hL : 0 ≤ L) (hlow : m * nrm q ≤ nrm (A *ᵥ q)) (hM : nrm (A *ᵥ q) ≤ M * nrm q)
    (htay : nrm (rs - r + A *ᵥ e) ≤ L / 2 * nrm e ^ 2)
    (hlip : nrm ((A - As) *ᵥ q) ≤ L * nrm e * nrm q) :
    (m ^ 2 + lam) * nrm q ≤ (lam + L * nrm rs) * nrm e + M * (L / 2) * nrm e ^ 2 := by
  have h1 : nrm (A *ᵥ q) ^ 2 + lam * nrm q ^ 2 =
      (A *ᵥ q) ⬝ᵥ (rs - r + A *ᵥ e) + lam * (q ⬝ᵥ e) - ((A - As) *ᵥ q) ⬝ᵥ rs := by
    have h := congrArg (fun z => q ⬝ᵥ z) heq
    simp only [add_mulVec, smul_mulVec, one_mulVec, dotProduct_add, dotProduct_smul, ← mulVec_mulVec, smul_eq_mul,
      dotProduct_sub, mulVec_sub] at h
    have t : ∀ (B : Matrix (Fin p) (Fin d) ℝ) (z : Fin p → ℝ), q ⬝ᵥ (Bᵀ *ᵥ z) = (B *ᵥ q) ⬝ᵥ z := by
      intro B z
      rw [dotProduct_mulVec, vecMul_transpose]
    simp only [t] at h
    have hs : (As *ᵥ q) ⬝ᵥ rs = 0 := by rw [← t, hst, dotProduct_zero]
    simp only [nrm_sq, sub_mulVec, sub_dotProduct, dotProduct_add, dotProduct_sub, hs]
    simp only [dotProduct_neg] at h
    linarith
  have hq := nrm_nonneg q
  have he := nrm_nonneg e
  rcases hq.eq_or_lt with hz | hz
  · rw [← hz, mul_zero]
    have := nrm_nonneg rs
    positivity
  · have b1 := dot_le (A *ᵥ q) (rs - r + A *ᵥ e)
    have b2 := dot_le q e
    have b3 : -(((A - As) *ᵥ q) ⬝ᵥ rs) ≤ L * nrm e * nrm q * nrm rs := by
      have := dot_le (-((A - As) *ᵥ q)) rs
      rw [neg_dotProduct, nrm_neg] at this
      exact this.trans (mul_le_mul_of_nonneg_right hlip (nrm_nonneg _))
    have b4 : (m * nrm q) ^ 2 ≤ nrm (A *ᵥ q) ^ 2 := pow_le_pow_left₀ (by positivity) hlow 2
    have b5 : nrm (A *ᵥ q) * nrm (rs - r + A *ᵥ e) ≤ M * nrm q * (L / 2 * nrm e ^ 2) :=
      mul_le_mul hM htay (nrm_nonneg _) ((nrm_nonneg _).trans hM)
    have b6 := mul_le_mul_of_nonneg_left b2 hlam
    have : nrm q * ((m ^ 2 + lam) * nrm q) ≤
        nrm q * ((lam + L * nrm rs) * nrm e + M * (L / 2) * nrm e ^ 2) := by nlinarith
    exact le_of_mul_le_mul_left this hz

end Verif.Conv
