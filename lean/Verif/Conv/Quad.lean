import Verif.Conv.Props
/-!
# Quadratic convergence of Gauss–Newton on problems with zero residual; limits of local convergence (C92)
-/
namespace Verif.Conv
open Matrix Verif.Steps Verif.Layer Verif.Nlopt
open scoped Classical Topology
variable {p d n : Nat}

theorem Contracts.mono {pr : Prob p d} {xs : Fin d → ℝ} {lam : Option ℝ} {θ C ρ ρ' : ℝ}
    (h : Contracts pr xs lam θ C ρ) (hρ : ρ' ≤ ρ) : Contracts pr xs lam θ C ρ' :=
  ⟨fun x hx => h.rank x (hx.trans_le hρ), fun x hx => h.rate x (hx.trans_le hρ),
    fun a b x hx => h.quad a b x (hx.trans_le hρ)⟩

/-- Near a zero of the errors their norm is comparable to the distance. -/
theorem resid_bounds {pr : Prob p d} {xs : Fin d → ℝ} {L ρ0 ρ m : ℝ} (hs : Smooth pr xs L ρ0) (hρ0 : 0 < ρ0)
    (hρ : ρ ≤ ρ0) (hL : 0 ≤ L) (hr : pr.r xs = 0) (hm : 0 < m) (hlow : Lower pr xs m) (hLρ : L * ρ ≤ m / 4) :
    ∃ K, 0 < K ∧ ∀ x, nrm (x - xs) < ρ →
      m / 2 * nrm (x - xs) ≤ nrm (pr.r x) ∧ nrm (pr.r x) ≤ K * nrm (x - xs) := by
  obtain ⟨M0, hM0, hup⟩ := exists_upper (pr.J xs)
  refine ⟨M0 + m, by positivity, fun x hx => ?_⟩
  have hxs : nrm (xs - xs) < ρ0 := by rw [sub_self, nrm_zero]; exact hρ0
  have hn := nrm_nonneg (x - xs)
  have h1 := taylor hs hL (hx.trans_le hρ)
  have h2 := hs.lip x xs (hx.trans_le hρ) hxs (x - xs)
  set e := x - xs with he
  have hLe : L * nrm e ≤ m / 4 := le_trans (mul_le_mul_of_nonneg_left hx.le hL) hLρ
  have h1' : nrm (pr.J x *ᵥ e - pr.r x) ≤ m / 8 * nrm e := by
    have e1 : pr.r xs - pr.r x - pr.J x *ᵥ (xs - x) = pr.J x *ᵥ e - pr.r x := by
      rw [hr, he, mulVec_sub, mulVec_sub]; abel
    rw [e1] at h1
    nlinarith
  have h2' : nrm ((pr.J x - pr.J xs) *ᵥ e) ≤ m / 4 * nrm e := by nlinarith
  have h3 := hlow e
  have h4 := hup e
  have e2 : pr.r x = pr.J xs *ᵥ e + ((pr.J x - pr.J xs) *ᵥ e + -(pr.J x *ᵥ e - pr.r x)) := by
    rw [sub_mulVec]; abel
  have h5 : nrm ((pr.J x - pr.J xs) *ᵥ e + -(pr.J x *ᵥ e - pr.r x)) ≤ m / 4 * nrm e + m / 8 * nrm e := by
    refine (nrm_add _ _).trans (add_le_add h2' ?_)
    rw [nrm_neg]; exact h1'
  constructor
  · have := nrm_sub_le (pr.J xs *ᵥ e) ((pr.J x - pr.J xs) *ᵥ e + -(pr.J x *ᵥ e - pr.r x))
    rw [← e2] at this
    nlinarith
  · have := nrm_add (pr.J xs *ᵥ e) ((pr.J x - pr.J xs) *ᵥ e + -(pr.J x *ᵥ e - pr.r x))
    rw [← e2] at this
    nlinarith

theorem exists_quad {pr : Prob p d} {xs : Fin d → ℝ} (h : Regular pr xs) (hr : pr.r xs = 0) :
    ∃ ρ C, 0 < ρ ∧ 0 < C ∧ C * ρ ≤ 1 / 2 ∧ Contracts pr xs none (1 / 2) C ρ ∧
      ∀ x, nrm (x - xs) < ρ → pr.cost (x + dstep (Elt.lin ⟨pr, x⟩) none) ≤ pr.cost x / 4 := by
  obtain ⟨L, ρ0, hL, hρ0, hs⟩ := h.exists_smooth
  obtain ⟨m, hm, hlow⟩ := exists_lower _ h.rank
  have hst : Stationary pr xs := by unfold Stationary; rw [hr, mulVec_zero]
  obtain ⟨ρ1, C, h1, h2, h3, h4, h5⟩ := exists_contracts (lam := none) (θ := 1 / 2) hs hρ0 hL hst hm hlow (le_refl _)
    (by rw [hr, nrm_zero]; simp)
  obtain ⟨K, hK, hb⟩ := resid_bounds hs hρ0 h2 hL hr hm hlow h5
  set ρ := min ρ1 (min (1 / (2 * C)) (m / (4 * (K * C)))) with hρ
  have hρpos : 0 < ρ := lt_min h1 (lt_min (by positivity) (by positivity))
  have hρ1 : ρ ≤ ρ1 := min_le_left _ _
  have hCρ : C * ρ ≤ 1 / 2 := by
    have : ρ ≤ 1 / (2 * C) := (min_le_right _ _).trans (min_le_left _ _)
    rw [le_div_iff₀ (by positivity)] at this
    linarith
  have hKρ : K * C * ρ ≤ m / 4 := by
    have : ρ ≤ m / (4 * (K * C)) := (min_le_right _ _).trans (min_le_right _ _)
    rw [le_div_iff₀ (by positivity)] at this
    linarith
  have hc := h4.mono hρ1
  refine ⟨ρ, C, hρpos, h3, hCρ, hc, fun x hx => ?_⟩
  have hq := hc.quad rfl hr x hx
  have hn := nrm_nonneg (x - xs)
  have hq' : nrm (x + dstep (Elt.lin ⟨pr, x⟩) none - xs) ≤ C * ρ * nrm (x - xs) := by
    refine hq.trans ?_
    have : 0 ≤ C * nrm (x - xs) := by positivity
    nlinarith
  have hx' : nrm (x + dstep (Elt.lin ⟨pr, x⟩) none - xs) < ρ1 := by
    refine lt_of_le_of_lt hq' (lt_of_lt_of_le ?_ hρ1)
    nlinarith
  have b1 := (hb x (hx.trans_le hρ1)).1
  have b2 := (hb _ hx').2
  have b3 : nrm (pr.r (x + dstep (Elt.lin ⟨pr, x⟩) none)) ≤ nrm (pr.r x) / 2 := by
    have : K * nrm (x + dstep (Elt.lin ⟨pr, x⟩) none - xs) ≤ K * (C * ρ * nrm (x - xs)) :=
      mul_le_mul_of_nonneg_left hq' hK.le
    have h6 : K * C * ρ * nrm (x - xs) ≤ m / 4 * nrm (x - xs) := mul_le_mul_of_nonneg_right hKρ hn
    nlinarith
  rw [cost_eq, cost_eq]
  have := nrm_nonneg (pr.r (x + dstep (Elt.lin ⟨pr, x⟩) none))
  nlinarith [pow_le_pow_left₀ this b3 2]

theorem iter_quad {pr : Prob p d} {xs : Fin d → ℝ} {C ρ : ℝ} (hr : pr.r xs = 0) (hC : 0 < C)
    (hc : Contracts pr xs none (1 / 2) C ρ) {e : Elt p d} (he : e ∈ Near pr xs ρ) (j : Nat) :
    nrm (((stepElt none 1)^[j] e).x - xs) ≤ (C * nrm (e.x - xs)) ^ 2 ^ j / C := by
  induction j with
  | zero => simp [hC.ne']
  | succ j ih =>
    rw [Function.iterate_succ_apply']
    have hm := iter_mem (fun x hx => step_near hc (by norm_num) zero_le_one (le_refl 1) hx) he j
    set f := (stepElt none 1)^[j] e with hf
    obtain ⟨q, x⟩ := f
    obtain ⟨g1, g2⟩ := hm
    simp only at g1 g2
    subst g1
    have h := hc.quad rfl hr x g2
    simp only [stepElt, one_smul]
    refine h.trans ?_
    simp only at ih
    rw [le_div_iff₀ hC] at ih ⊢
    have h0 : 0 ≤ nrm (x - xs) * C := by have := nrm_nonneg (x - xs); positivity
    have h2 := pow_le_pow_left₀ h0 ih 2
    rw [pow_succ 2 j, pow_mul]
    refine le_trans (le_of_eq ?_) h2
    ring

/-- Gauss–Newton with full steps on problems whose errors vanish at `xs i` (and are twice continuously
differentiable, with a Jacobian of full column rank there): from all initial values close enough, the call
succeeds; after `j` steps the distance to `xs i` is at most `(C ‖x0 - xs‖)^(2^j) / C`, where
`C ‖x0 - xs‖ < 1/2`; and an element reported `CONVERGED` has a final error below `n * abs_err_tolerance`
(`n` the batch size) if the relative tolerance is at most 1/2. -/
theorem gn_quadratic (k : Kind) (eps : ℝ) (pr : Fin n → Prob p d) (xs : Fin n → Fin d → ℝ)
    (hreg : ∀ i, Regular (pr i) (xs i)) (hz : ∀ i, (pr i).r (xs i) = 0) :
    ∃ ρ C : Fin n → ℝ, (∀ i, 0 < ρ i ∧ 0 < C i ∧ C i * ρ i ≤ 1 / 2) ∧
      ∀ (P : Params ℝ), 0 < P.absTol → P.stepSize = 1 →
      ∀ (md : Mode), md = .unroll ∨ md = .dlm → ∀ (bwd : Option Int) (grad : Bool) (x0 : Fin n → Fin d → ℝ),
        (∀ i, nrm (x0 i - xs i) < ρ i) →
        ∃ xf info, optimizeImpl P (nlls n p d k ⟨none, false, eps⟩) md bwd grad (fun i => ⟨pr i, x0 i⟩) () = .ok xf info ∧
          (∀ i, Outcome P (pr i) (xf i) (info.status i) fun j x =>
            nrm (x - xs i) ≤ (C i * nrm (x0 i - xs i)) ^ 2 ^ j / C i) ∧
          (1 ≤ P.maxIter → P.relTol ≤ 1 / 2 → ∀ i, info.status i = .converged →
            (pr i).cost (xf i).x < n * P.absTol) := by
  choose ρ C h1 h2 h3 h4 h5 using fun i => exists_quad (hreg i) (hz i)
  refine ⟨ρ, C, fun i => ⟨h1 i, h2 i, h3 i⟩, fun P hP hs md hmd bwd grad x0 hx0 => ?_⟩
  have hA := nlls_acts P k none (le_refl _) eps pr xs (fun _ => 1 / 2) C ρ h4 (fun i => by norm_num)
    (by rw [hs]; exact zero_le_one) (by rw [hs])
  have hx0' : ∀ i, (⟨pr i, x0 i⟩ : Elt p d) ∈ Near (pr i) (xs i) (ρ i) := fun i => ⟨rfl, hx0 i⟩
  obtain ⟨xf, info, g1, g2⟩ := act_optimize hA hP hx0' md hmd bwd grad ()
  rw [hs] at g2
  refine ⟨xf, info, g1, fun i => ?_, fun hmax hrel i hst => ?_⟩
  · obtain ⟨j, a1, a2, a3, a4, a5⟩ := g2.val i
    refine ⟨by rw [a2, iter_pr], j, a1, fun h => a3 (by omega), fun h => (a4 h).1, ?_⟩
    rw [a2]
    exact iter_quad (hz i) (h2 i) (h4 i) (hx0' i) j
  · obtain ⟨j, a1, a2, a3, a4, a5⟩ := g2.val i
    have hj : 1 ≤ j := a3 (by omega)
    have hn1 : (1 : ℝ) ≤ n := by
      have : 1 ≤ n := by have := i.2; omega
      exact_mod_cast this
    have hcn : ∀ (i : Fin n) (x : Fin d → ℝ), 0 ≤ (pr i).cost x := fun i x => by rw [cost_eq]; positivity
    rcases a5 hst with hcl | hmean
    · have hdec : (pr i).cost ((stepElt none 1)^[j] ⟨pr i, x0 i⟩).x ≤
          (pr i).cost ((stepElt none 1)^[j - 1] ⟨pr i, x0 i⟩).x / 4 := by
        obtain ⟨q, rfl⟩ : ∃ q, j = q + 1 := ⟨j - 1, by omega⟩
        rw [Nat.add_sub_cancel, Function.iterate_succ_apply']
        have hm := iter_mem (fun x hx => step_near (h4 i) (by norm_num) zero_le_one (le_refl 1) hx) (hx0' i) q
        set f := (stepElt none 1)^[q] (⟨pr i, x0 i⟩ : Elt p d) with hf
        obtain ⟨w, x⟩ := f
        obtain ⟨e1, e2⟩ := hm
        simp only at e1 e2
        subst e1
        simp only [stepElt, one_smul]
        exact h5 i x e2
      have c0 := hcn i ((stepElt none 1)^[j] ⟨pr i, x0 i⟩).x
      rw [a2]
      have hlt : (pr i).cost ((stepElt none 1)^[j] ⟨pr i, x0 i⟩).x < P.absTol := by
        rcases hcl with hab | ⟨hne, hre⟩
        · have := (abs_lt.1 hab).2
          linarith
        · exfalso
          have hpos : 0 < (pr i).cost ((stepElt none 1)^[j - 1] ⟨pr i, x0 i⟩).x :=
            lt_of_le_of_ne (hcn i _) (Ne.symm hne)
          have := (abs_lt.1 hre).2
          rw [div_lt_iff₀ hpos] at this
          nlinarith
      nlinarith
    · rw [div_lt_iff₀ (by linarith)] at hmean
      have hle : |(pr i).cost (xf i).x| ≤ ∑ i, |(pr i).cost (xf i).x| :=
        Finset.single_le_sum (f := fun i => |(pr i).cost (xf i).x|) (fun _ _ => abs_nonneg _) (Finset.mem_univ i)
      have := le_abs_self ((pr i).cost (xf i).x)
      linarith

/-- Levenberg–Marquardt with a fixed damping `λ` on the same problems: linear convergence with some rate
below 1 per step, for every step size in `(0, 1]`. -/
theorem lm_linear (k : Kind) (lam : ℝ) (hl : 0 ≤ lam) (eps : ℝ) (pr : Fin n → Prob p d) (xs : Fin n → Fin d → ℝ)
    (hreg : ∀ i, Regular (pr i) (xs i)) (hz : ∀ i, (pr i).r (xs i) = 0) :
    ∃ ρ θ : Fin n → ℝ, (∀ i, 0 < ρ i ∧ 0 ≤ θ i ∧ θ i < 1) ∧
      ∀ (P : Params ℝ), 0 < P.absTol → 0 ≤ P.stepSize → P.stepSize ≤ 1 →
      ∀ (md : Mode), md = .unroll ∨ md = .dlm → ∀ (bwd : Option Int) (grad : Bool) (x0 : Fin n → Fin d → ℝ),
        (∀ i, nrm (x0 i - xs i) < ρ i) →
        ∃ xf info, optimizeImpl P (nlls n p d k ⟨some lam, false, eps⟩) md bwd grad (fun i => ⟨pr i, x0 i⟩) () = .ok xf info ∧
          ∀ i, Outcome P (pr i) (xf i) (info.status i) fun j x =>
            nrm (x - xs i) ≤ (1 - P.stepSize * (1 - θ i)) ^ j * nrm (x0 i - xs i) := by
  choose L ρ0 hL hρ0 hs using fun i => (hreg i).exists_smooth
  choose m hm hlow using fun i => exists_lower _ (hreg i).rank
  have hst : ∀ i, Stationary (pr i) (xs i) := fun i => by unfold Stationary; rw [hz i, mulVec_zero]
  have hth : ∀ i, ∃ θ, lam / (m i ^ 2 + lam) < θ ∧ θ < 1 := by
    intro i
    have hden : 0 < m i ^ 2 + lam := by have := hm i; positivity
    exact exists_between ((div_lt_one hden).2 (by have := hm i; nlinarith [sq_pos_of_pos this]))
  choose θ hθ hθ1 using hth
  obtain ⟨ρ, h1, h2⟩ := local_linear k (some lam) (by simpa using hl) eps pr xs L ρ0 m θ hs hρ0 hL hst hm hlow
    (fun i => by rw [hz i, nrm_zero, mul_zero, add_zero]; exact hθ i) hθ1
  refine ⟨ρ, θ, fun i => ⟨h1 i, le_trans ?_ (hθ i).le, hθ1 i⟩, h2⟩
  have := hm i
  positivity

end Verif.Conv
