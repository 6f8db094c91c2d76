import Verif.Conv.Local
import Mathlib.Analysis.Calculus.ContDiff.RCLike
import Mathlib.Analysis.SpecificLimits.Basic
/-!
# Local convergence of Gauss–Newton and Levenberg–Marquardt (C92)
-/
namespace Verif.Conv
open Matrix Verif.Steps Verif.Layer Verif.Nlopt
open scoped Classical Topology
variable {p d n : Nat}

/-! ### Specification -/

/-- The errors are twice continuously differentiable near `xs`, the Jacobian given by the cost functions
is the derivative there, and no direction leaves the linearized errors at `xs` unchanged. -/
structure Regular (pr : Prob p d) (xs : Fin d → ℝ) : Prop where
  smooth : ContDiffAt ℝ 2 pr.r xs
  jac : ∀ᶠ x in 𝓝 xs, HasFDerivAt pr.r (Matrix.mulVecLin (pr.J x)).toContinuousLinearMap x
  rank : ¬ Deficient (pr.J xs)

/-! ### From twice differentiable functions to the hypotheses of `Smooth` -/

theorem sup_le_nrm {k : Nat} (v : Fin k → ℝ) : ‖v‖ ≤ nrm v := by
  rw [pi_norm_le_iff_of_nonneg (nrm_nonneg v)]
  intro i
  rw [Real.norm_eq_abs]
  unfold nrm
  rw [← Real.sqrt_sq_eq_abs]
  exact Real.sqrt_le_sqrt (Finset.single_le_sum (f := fun i => v i ^ 2) (fun i _ => sq_nonneg _) (Finset.mem_univ i))

theorem nrm_le_sup {k : Nat} (v : Fin k → ℝ) : nrm v ≤ Real.sqrt k * ‖v‖ := by
  unfold nrm
  rw [← Real.sqrt_sq (norm_nonneg v), ← Real.sqrt_mul (by positivity)]
  refine Real.sqrt_le_sqrt ?_
  have : ∀ i ∈ Finset.univ, v i ^ 2 ≤ ‖v‖ ^ 2 := by
    intro i _
    have := norm_le_pi_norm v i
    rw [Real.norm_eq_abs] at this
    exact sq_le_sq' (by linarith [neg_abs_le (v i)]) ((le_abs_self _).trans this)
  have h := Finset.sum_le_card_nsmul _ _ _ this
  simpa using h

theorem Regular.exists_smooth {pr : Prob p d} {xs : Fin d → ℝ} (h : Regular pr xs) :
    ∃ L ρ, 0 ≤ L ∧ 0 < ρ ∧ Smooth pr xs L ρ := by
  have h1 : ContDiffAt ℝ 1 (fderiv ℝ pr.r) xs := h.smooth.fderiv_right (by norm_num)
  obtain ⟨K, t, ht, hK⟩ := h1.exists_lipschitzOnWith
  have hev : ∀ᶠ x in 𝓝 xs, x ∈ t ∧ HasFDerivAt pr.r (Matrix.mulVecLin (pr.J x)).toContinuousLinearMap x :=
    (Filter.eventually_of_mem ht fun _ hx => hx).and h.jac
  obtain ⟨ρ, hρ, hball⟩ := Metric.eventually_nhds_iff.1 hev
  have hin : ∀ x, nrm (x - xs) < ρ → x ∈ t ∧ HasFDerivAt pr.r (Matrix.mulVecLin (pr.J x)).toContinuousLinearMap x := by
    intro x hx
    exact hball (by rw [dist_eq_norm]; exact lt_of_le_of_lt (sup_le_nrm _) hx)
  refine ⟨Real.sqrt p * K, ρ, by positivity, hρ, fun x hx => (hin x hx).2, fun x y hx hy v => ?_⟩
  obtain ⟨xt, xd⟩ := hin x hx
  obtain ⟨yt, yd⟩ := hin y hy
  have e : (pr.J x - pr.J y) *ᵥ v = (fderiv ℝ pr.r x - fderiv ℝ pr.r y) v := by
    rw [xd.fderiv, yd.fderiv, sub_mulVec]; rfl
  rw [e]
  refine (nrm_le_sup _).trans ?_
  have h2 := (fderiv ℝ pr.r x - fderiv ℝ pr.r y).le_opNorm v
  have h3 := hK.norm_sub_le xt yt
  have h4 : ‖(fderiv ℝ pr.r x - fderiv ℝ pr.r y) v‖ ≤ K * nrm (x - y) * nrm v := by
    refine h2.trans (mul_le_mul (h3.trans ?_) (sup_le_nrm v) (norm_nonneg v) ?_)
    · exact mul_le_mul_of_nonneg_left (sup_le_nrm _) K.2
    · exact mul_nonneg K.2 (nrm_nonneg _)
  have h5 := mul_le_mul_of_nonneg_left h4 (Real.sqrt_nonneg (p : ℝ))
  refine h5.trans (le_of_eq (by ring))

/-! ### Linear convergence -/

/-- Outcome of a call: element `i` has made `j` steps, at least one if there is an iteration, and exactly
the iteration limit unless it is reported `CONVERGED`; `bound j` holds for its final value. -/
def Outcome (P : Params ℝ) (pr : Prob p d) (e : Elt p d) (status : Status) (bound : Nat → (Fin d → ℝ) → Prop) : Prop :=
  e.pr = pr ∧ ∃ j ≤ P.maxIter.toNat, (1 ≤ P.maxIter → 1 ≤ j) ∧ (status ≠ .converged → j = P.maxIter.toNat) ∧
    bound j e.x

theorem iter_pr (lam : Option ℝ) (s : ℝ) (e : Elt p d) (j : Nat) : ((stepElt lam s)^[j] e).pr = e.pr := by
  induction j with
  | zero => rfl
  | succ j ih => rw [Function.iterate_succ_apply']; exact ih

/-- Gauss–Newton (`lam = none`) and Levenberg–Marquardt with a fixed damping `λ` near stationary points
`xs i` with residual `r(xs i)`: if the Jacobian is Lipschitz with constant `L` and shrinks no vector by more
than `m` at the stationary point, then for every rate `θ < 1` above `(λ + L ‖r(xs)‖) / (m² + λ)` there is a
radius such that from any initial values within it the call succeeds, and every step of size `s` multiplies
the distance to `xs i` by at most `1 - s (1 - θ)`. -/
theorem local_linear (k : Kind) (lam : Option ℝ) (hl : 0 ≤ lam.getD 0) (eps : ℝ) (pr : Fin n → Prob p d)
    (xs : Fin n → Fin d → ℝ) (L ρ0 m θ : Fin n → ℝ) (hsm : ∀ i, Smooth (pr i) (xs i) (L i) (ρ0 i))
    (hρ0 : ∀ i, 0 < ρ0 i) (hL : ∀ i, 0 ≤ L i) (hst : ∀ i, Stationary (pr i) (xs i)) (hm : ∀ i, 0 < m i)
    (hlow : ∀ i, Lower (pr i) (xs i) (m i))
    (hθ : ∀ i, (lam.getD 0 + L i * nrm ((pr i).r (xs i))) / (m i ^ 2 + lam.getD 0) < θ i) (hθ1 : ∀ i, θ i < 1) :
    ∃ ρ : Fin n → ℝ, (∀ i, 0 < ρ i) ∧
      ∀ (P : Params ℝ), 0 < P.absTol → 0 ≤ P.stepSize → P.stepSize ≤ 1 →
      ∀ (md : Mode), md = .unroll ∨ md = .dlm → ∀ (bwd : Option Int) (grad : Bool) (x0 : Fin n → Fin d → ℝ),
        (∀ i, nrm (x0 i - xs i) < ρ i) →
        ∃ xf info, optimizeImpl P (nlls n p d k ⟨lam, false, eps⟩) md bwd grad (fun i => ⟨pr i, x0 i⟩) () = .ok xf info ∧
          ∀ i, Outcome P (pr i) (xf i) (info.status i) fun j x =>
            nrm (x - xs i) ≤ (1 - P.stepSize * (1 - θ i)) ^ j * nrm (x0 i - xs i) := by
  have hex := fun i => exists_contracts (hsm i) (hρ0 i) (hL i) (hst i) (hm i) (hlow i) hl (hθ i)
  choose ρ C h1 h2 h3 h4 h5 using hex
  have hθ0 : ∀ i, 0 ≤ θ i := by
    intro i
    refine le_trans ?_ (hθ i).le
    have := hL i
    have := nrm_nonneg ((pr i).r (xs i))
    positivity
  refine ⟨ρ, h1, fun P hP hs0 hs1 md hmd bwd grad x0 hx0 => ?_⟩
  have hA := nlls_acts P k lam hl eps pr xs θ C ρ h4 (fun i => (hθ1 i).le) hs0 hs1
  have hx0' : ∀ i, (⟨pr i, x0 i⟩ : Elt p d) ∈ Near (pr i) (xs i) (ρ i) := fun i => ⟨rfl, hx0 i⟩
  obtain ⟨xf, info, g1, g2⟩ := act_optimize hA hP hx0' md hmd bwd grad ()
  refine ⟨xf, info, g1, fun i => ?_⟩
  obtain ⟨j, a1, a2, a3, a4, a5⟩ := g2.val i
  refine ⟨by rw [a2, iter_pr], j, a1, fun h => a3 (by omega), fun h => (a4 h).1, ?_⟩
  rw [a2]
  exact iter_rate (h4 i) (hθ0 i) (hθ1 i).le hs0 hs1 (hx0' i) j

theorem cost_eq (pr : Prob p d) (x : Fin d → ℝ) : pr.cost x = nrm (pr.r x) ^ 2 / 2 := by
  unfold Prob.cost
  rw [nrm_sq]
  congr 1
  exact Finset.sum_congr rfl fun i _ => by ring

theorem nrm_continuous {k : Nat} : Continuous (nrm : (Fin k → ℝ) → ℝ) := by
  unfold nrm
  fun_prop

/-- Under the same hypotheses and with a positive step size, every element is reported `CONVERGED` once the
iteration limit is large enough; how large depends on the tolerances and the step size, not on the initial
values. -/
theorem local_converges (k : Kind) (lam : Option ℝ) (hl : 0 ≤ lam.getD 0) (eps : ℝ) (pr : Fin n → Prob p d)
    (xs : Fin n → Fin d → ℝ) (L ρ0 m : Fin n → ℝ) (hsm : ∀ i, Smooth (pr i) (xs i) (L i) (ρ0 i))
    (hρ0 : ∀ i, 0 < ρ0 i) (hL : ∀ i, 0 ≤ L i) (hst : ∀ i, Stationary (pr i) (xs i)) (hm : ∀ i, 0 < m i)
    (hlow : ∀ i, Lower (pr i) (xs i) (m i)) (hres : ∀ i, L i * nrm ((pr i).r (xs i)) < m i ^ 2) :
    ∃ ρ : Fin n → ℝ, (∀ i, 0 < ρ i) ∧
      ∀ absTol relTol s : ℝ, 0 < absTol → 0 < s → s ≤ 1 → ∃ N : Nat,
      ∀ (maxIter : Int), (N : Int) ≤ maxIter →
      ∀ (md : Mode), md = .unroll ∨ md = .dlm → ∀ (bwd : Option Int) (grad : Bool) (x0 : Fin n → Fin d → ℝ),
        (∀ i, nrm (x0 i - xs i) < ρ i) →
        ∃ xf info, optimizeImpl ⟨absTol, relTol, maxIter, s⟩ (nlls n p d k ⟨lam, false, eps⟩) md bwd grad
            (fun i => ⟨pr i, x0 i⟩) () = .ok xf info ∧
          ∀ i, info.status i = .converged := by
  have hth : ∀ i, ∃ θ, (lam.getD 0 + L i * nrm ((pr i).r (xs i))) / (m i ^ 2 + lam.getD 0) < θ ∧ θ < 1 := by
    intro i
    have hden : 0 < m i ^ 2 + lam.getD 0 := by have := hm i; positivity
    exact exists_between ((div_lt_one hden).2 (by linarith [hres i]))
  choose θ hθ hθ1 using hth
  have hex := fun i => exists_contracts (hsm i) (hρ0 i) (hL i) (hst i) (hm i) (hlow i) hl (hθ i)
  choose ρ C h1 h2 h3 h4 h5 using hex
  have hθ0 : ∀ i, 0 ≤ θ i := by
    intro i
    refine le_trans ?_ (hθ i).le
    have := hL i
    have := nrm_nonneg ((pr i).r (xs i))
    positivity
  refine ⟨ρ, h1, fun absTol relTol s hP hs0 hs1 => ?_⟩
  -- the error is close to its limit near the solution
  have hcont : ∀ i, ∃ η, 0 < η ∧ ∀ x, nrm (x - xs i) < η → |(pr i).cost x - (pr i).cost (xs i)| < absTol / 2 := by
    intro i
    have hr : ContinuousAt (pr i).r (xs i) :=
      ((hsm i).deriv (xs i) (by rw [sub_self, nrm_zero]; exact hρ0 i)).continuousAt
    have hc : ContinuousAt (pr i).cost (xs i) := by
      have : (pr i).cost = fun x => nrm ((pr i).r x) ^ 2 / 2 := funext (cost_eq (pr i))
      rw [this]
      exact ((nrm_continuous.continuousAt.comp hr).pow 2).div_const 2
    obtain ⟨η, hη, hb⟩ := Metric.continuousAt_iff.1 hc (absTol / 2) (by positivity)
    refine ⟨η, hη, fun x hx => ?_⟩
    have := hb (x := x) (by rw [dist_eq_norm]; exact lt_of_le_of_lt (sup_le_nrm _) hx)
    rwa [Real.dist_eq] at this
  choose η hη hη2 using hcont
  have hN : ∀ i, ∃ N : Nat, ∀ j ≥ N, (1 - s * (1 - θ i)) ^ j * ρ i < η i := by
    intro i
    have h0 : 0 ≤ 1 - s * (1 - θ i) := by nlinarith [hθ0 i, hθ1 i]
    have h1' : 1 - s * (1 - θ i) < 1 := by nlinarith [hθ1 i]
    have ht := (tendsto_pow_atTop_nhds_zero_of_lt_one h0 h1').mul_const (ρ i)
    rw [zero_mul] at ht
    have := ht.eventually (gt_mem_nhds (hη i))
    exact Filter.eventually_atTop.1 this
  choose N hN using hN
  refine ⟨(∑ i, N i) + 1, fun maxIter hmax md hmd bwd grad x0 hx0 => ?_⟩
  set P : Params ℝ := ⟨absTol, relTol, maxIter, s⟩ with hPdef
  have hA := nlls_acts P k lam hl eps pr xs θ C ρ h4 (fun i => (hθ1 i).le) hs0.le hs1
  have hx0' : ∀ i, (⟨pr i, x0 i⟩ : Elt p d) ∈ Near (pr i) (xs i) (ρ i) := fun i => ⟨rfl, hx0 i⟩
  obtain ⟨xf, info, g1, g2⟩ := act_optimize hA hP hx0' md hmd bwd grad ()
  refine ⟨xf, info, g1, fun i => ?_⟩
  by_contra hne
  obtain ⟨j, a1, a2, a3, a4, a5⟩ := g2.val i
  obtain ⟨b1, b2⟩ := a4 hne
  have hNi : N i ≤ ∑ i, N i := Finset.single_le_sum (f := N) (fun _ _ => Nat.zero_le _) (Finset.mem_univ i)
  have hj : N i + 1 ≤ j := by
    rw [b1]
    have : P.maxIter = maxIter := rfl
    omega
  refine b2 (by omega) (Or.inl ?_)
  have hnear : ∀ q ≥ N i, |(pr i).cost (((stepElt lam s)^[q] ⟨pr i, x0 i⟩).x) - (pr i).cost (xs i)| < absTol / 2 := by
    intro q hq
    refine hη2 i _ ?_
    have hr := iter_rate (h4 i) (hθ0 i) (hθ1 i).le hs0.le hs1 (hx0' i) q
    refine lt_of_le_of_lt hr (lt_of_le_of_lt ?_ (hN i q hq))
    have h0 : 0 ≤ 1 - s * (1 - θ i) := by nlinarith [hθ0 i, hθ1 i]
    exact mul_le_mul_of_nonneg_left (hx0 i).le (pow_nonneg h0 q)
  have c1 := hnear (j - 1) (by omega)
  have c2 := hnear j (by omega)
  rw [abs_lt] at c1 c2 ⊢
  show -absTol < _ ∧ _ < absTol
  constructor <;> linarith [c1.1, c1.2, c2.1, c2.2]

end Verif.Conv
