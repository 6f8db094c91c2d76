import Verif.Conv.Bound
import Verif.Conv.Loop
import Mathlib.Topology.Algebra.Order.Field
/-!
# Near a solution the optimizers act by a contraction
-/
namespace Verif.Conv
open Matrix Verif.Steps Verif.Layer Verif.Nlopt
open scoped Classical Topology
variable {p d n : Nat}

/-- The matrix of the damped normal equations. -/
noncomputable def dmat (L : Lin ℝ p d) (lam : Option ℝ) : Matrix (Fin d) (Fin d) ℝ :=
  L.AtA + (lam.getD 0) • (1 : Matrix (Fin d) (Fin d) ℝ)

/-- The step the solver computes. -/
noncomputable def dstep (L : Lin ℝ p d) (lam : Option ℝ) : Fin d → ℝ := (dmat L lam)⁻¹ *ᵥ L.Atb

theorem dmat_posDef {L : Lin ℝ p d} {lam : Option ℝ} (hl : 0 ≤ lam.getD 0) (hd : ¬ Deficient L.A) :
    (dmat L lam).PosDef := by
  have hdet : L.AtA.det ≠ 0 := fun h => hd ((deficient_iff L).2 h)
  have := damped_posDef L (lam := lam.getD 0) (eps := 0) (ell := false) hl (le_refl _) (Or.inl hdet)
  simpa [applyDamping, dmat] using this

theorem solve_dstep (k : Kind) (L : Fin n → Lin ℝ p d) (lam : Option ℝ) (hl : 0 ≤ lam.getD 0) (eps : ℝ)
    (hd : ∀ i, ¬ Deficient (L i).A) :
    denseSolve k false true (sysOf L) (lam.map .scalar) false eps = .ok fun i => dstep (L i) lam := by
  have hpd : ∀ i, (dmat (L i) lam).PosDef := fun i => dmat_posDef hl (hd i)
  cases lam with
  | none =>
    have hpd' : ∀ i, ((sysOf L).AtA i).det ≠ 0 := fun i h => hd i ((deficient_iff (L i)).2 h)
    simp only [denseSolve, dampAndSolve, Option.map_none, Bool.false_eq_true, if_false]
    rw [solveSystem_eq k (sysOf L) (sysOf_psd L), if_pos hpd']
    congr 1
    funext i
    simp [dstep, dmat, sysOf]
  | some l =>
    simp only [denseSolve, dampAndSolve, Option.map_some, Bool.false_eq_true, if_false, denseDamping]
    have hm : ∀ i, applyDamping ((sysOf L).AtA i) l false eps = dmat (L i) (some l) := by
      intro i; simp [applyDamping, dmat, sysOf]
    simp only [hm]
    rw [solveSystem_eq k _ fun i => (hpd i).posSemidef, if_pos fun i => (hpd i).det_pos.ne']
    rfl

/-- One step of one element. -/
noncomputable def stepElt (lam : Option ℝ) (s : ℝ) (e : Elt p d) : Elt p d := { e with x := e.x + s • dstep e.lin lam }

/-- The elements with cost functions `pr` and a value closer than `ρ` to `xs`. -/
def Near (pr : Prob p d) (xs : Fin d → ℝ) (ρ : ℝ) : Set (Elt p d) := {e | e.pr = pr ∧ nrm (e.x - xs) < ρ}

/-- Everything needed about one problem near a stationary point. -/
structure Contracts (pr : Prob p d) (xs : Fin d → ℝ) (lam : Option ℝ) (θ C ρ : ℝ) : Prop where
  rank : ∀ x, nrm (x - xs) < ρ → ¬ Deficient (pr.J x)
  rate : ∀ x, nrm (x - xs) < ρ → nrm (x + dstep (Elt.lin ⟨pr, x⟩) lam - xs) ≤ θ * nrm (x - xs)
  quad : lam = none → pr.r xs = 0 → ∀ x, nrm (x - xs) < ρ →
    nrm (x + dstep (Elt.lin ⟨pr, x⟩) lam - xs) ≤ C * nrm (x - xs) ^ 2

theorem exists_upper (A : Matrix (Fin p) (Fin d) ℝ) : ∃ M, 0 ≤ M ∧ ∀ v, nrm (A *ᵥ v) ≤ M * nrm v := by
  let f : EuclideanSpace ℝ (Fin d) →ₗ[ℝ] EuclideanSpace ℝ (Fin p) := Matrix.toEuclideanLin A
  refine ⟨‖f.toContinuousLinearMap‖, norm_nonneg _, fun v => ?_⟩
  rw [nrm_eq, nrm_eq]
  exact f.toContinuousLinearMap.le_opNorm (WithLp.toLp 2 v)

theorem exists_lower (A : Matrix (Fin p) (Fin d) ℝ) (h : ¬ Deficient A) :
    ∃ m, 0 < m ∧ ∀ v, m * nrm v ≤ nrm (A *ᵥ v) := by
  let f : EuclideanSpace ℝ (Fin d) →ₗ[ℝ] EuclideanSpace ℝ (Fin p) := Matrix.toEuclideanLin A
  have hker : LinearMap.ker f = ⊥ := by
    rw [LinearMap.ker_eq_bot']
    intro v hv
    by_contra hne
    refine h ⟨v.ofLp, fun h0 => hne ?_, ?_⟩
    · apply (WithLp.ofLp_injective 2); rw [h0]; rfl
    · have := congrArg WithLp.ofLp hv
      simpa [f] using this
  obtain ⟨K, hK, hf⟩ := f.toContinuousLinearMap.toLinearMap.exists_antilipschitzWith hker
  have hK' : (0 : ℝ) < K := by exact_mod_cast hK
  refine ⟨(K : ℝ)⁻¹, inv_pos.2 hK', fun v => ?_⟩
  rw [nrm_eq, nrm_eq]
  have h1 := hf.le_mul_dist (WithLp.toLp 2 v) 0
  simp only [dist_zero_right, map_zero] at h1
  rw [inv_mul_le_iff₀ hK']
  exact h1

theorem nrm_sub_le {k : Nat} (v w : Fin k → ℝ) : nrm v - nrm w ≤ nrm (v + w) := by
  have := nrm_add (v + w) (-w)
  rw [nrm_neg, add_neg_cancel_right] at this
  linarith

/-- Below any radius, and for every rate above `(λ + L ‖r(xs)‖) / (m² + λ)`, the step is a contraction on
some ball about the stationary point. -/
theorem exists_contracts {pr : Prob p d} {xs : Fin d → ℝ} {L ρ0 m θ : ℝ} {lam : Option ℝ} (hs : Smooth pr xs L ρ0)
    (hρ : 0 < ρ0) (hL : 0 ≤ L) (hst : Stationary pr xs) (hm : 0 < m) (hlow : Lower pr xs m) (hl : 0 ≤ lam.getD 0)
    (hθ : (lam.getD 0 + L * nrm (pr.r xs)) / (m ^ 2 + lam.getD 0) < θ) :
    ∃ ρ C, 0 < ρ ∧ ρ ≤ ρ0 ∧ 0 < C ∧ Contracts pr xs lam θ C ρ ∧ L * ρ ≤ m / 4 := by
  set l := lam.getD 0 with hldef
  obtain ⟨M0, hM0, hup⟩ := exists_upper (pr.J xs)
  set M := M0 + m / 4
  have hden : 0 < m ^ 2 + l := by positivity
  have hθ' : l + L * nrm (pr.r xs) < θ * (m ^ 2 + l) := (div_lt_iff₀ hden).1 hθ
  -- choice of the radius
  have hcont : Filter.Tendsto (fun ρ : ℝ => θ * ((m - L * ρ) ^ 2 + l) - (l + L * nrm (pr.r xs) + M * (L / 2) * ρ)) (𝓝[>] 0)
      (𝓝 (θ * ((m - L * 0) ^ 2 + l) - (l + L * nrm (pr.r xs) + M * (L / 2) * 0))) := by
    refine Filter.Tendsto.mono_left ?_ nhdsWithin_le_nhds
    exact Continuous.tendsto (by fun_prop) 0
  have hcont2 : Filter.Tendsto (fun ρ : ℝ => L * ρ) (𝓝[>] 0) (𝓝 (L * 0)) := by
    refine Filter.Tendsto.mono_left ?_ nhdsWithin_le_nhds
    exact Continuous.tendsto (by fun_prop) 0
  have e1 := hcont.eventually (lt_mem_nhds (show (0 : ℝ) < _ by nlinarith))
  have e2 := hcont2.eventually (gt_mem_nhds (show L * 0 < m / 4 by linarith [mul_zero L]))
  have e3 : ∀ᶠ ρ in 𝓝[>] (0 : ℝ), 0 < ρ := eventually_mem_nhdsWithin
  have e4 : ∀ᶠ ρ in 𝓝[>] (0 : ℝ), ρ < ρ0 := (gt_mem_nhds hρ).filter_mono nhdsWithin_le_nhds
  obtain ⟨ρ, ⟨⟨h1, h2⟩, h3⟩, h4⟩ := (((e1.and e2).and e3).and e4).exists
  refine ⟨ρ, M * (L / 2) / ((m / 2) ^ 2) + 1, h3, h4.le, by positivity, ?_, h2.le⟩
  have hxs : nrm (xs - xs) < ρ0 := by rw [sub_self, nrm_zero]; exact hρ
  have hb : ∀ x, nrm (x - xs) < ρ → (∀ v, (m - L * ρ) * nrm v ≤ nrm (pr.J x *ᵥ v)) ∧
      (∀ v, nrm (pr.J x *ᵥ v) ≤ M * nrm v) := by
    intro x hx
    have hlip := hs.lip x xs (hx.trans h4) hxs
    have hlip' : ∀ v, nrm ((pr.J x - pr.J xs) *ᵥ v) ≤ L * ρ * nrm v := fun v =>
      (hlip v).trans (mul_le_mul_of_nonneg_right (mul_le_mul_of_nonneg_left hx.le hL) (nrm_nonneg v))
    have e : ∀ v, pr.J x *ᵥ v = pr.J xs *ᵥ v + (pr.J x - pr.J xs) *ᵥ v := fun v => by
      rw [sub_mulVec]; abel
    refine ⟨fun v => ?_, fun v => ?_⟩
    · rw [e v]
      have := nrm_sub_le (pr.J xs *ᵥ v) ((pr.J x - pr.J xs) *ᵥ v)
      have a := hlow v
      have b := hlip' v
      nlinarith
    · rw [e v]
      have := nrm_add (pr.J xs *ᵥ v) ((pr.J x - pr.J xs) *ᵥ v)
      have a := hup v
      have b := hlip' v
      have c := mul_le_mul_of_nonneg_right h2.le (nrm_nonneg v)
      simp only [M]
      nlinarith
  have hmρ : 0 < m - L * ρ := by linarith
  have hrank : ∀ x, nrm (x - xs) < ρ → ¬ Deficient (pr.J x) := by
    rintro x hx ⟨w, hw, h0⟩
    have := (hb x hx).1 w
    rw [h0, nrm_zero] at this
    have hp : 0 < nrm w := lt_of_le_of_ne (nrm_nonneg w) fun h => hw (nrm_eq_zero.1 h.symm)
    nlinarith
  have hstep : ∀ x, nrm (x - xs) < ρ →
      ((m - L * ρ) ^ 2 + l) * nrm (x + dstep (Elt.lin ⟨pr, x⟩) lam - xs) ≤
        (l + L * nrm (pr.r xs)) * nrm (x - xs) + M * (L / 2) * nrm (x - xs) ^ 2 := by
    intro x hx
    set q := x + dstep (Elt.lin ⟨pr, x⟩) lam - xs with hq
    have hpd := dmat_posDef (L := Elt.lin ⟨pr, x⟩) hl (hrank x hx)
    have heq := (solve_unique hpd.det_pos.ne' (Elt.lin ⟨pr, x⟩).Atb (dstep (Elt.lin ⟨pr, x⟩) lam)).1 rfl
    have hqe : q - (x - xs) = dstep (Elt.lin ⟨pr, x⟩) lam := by rw [hq]; abel
    refine step_bound (A := pr.J x) (As := pr.J xs) (r := pr.r x) (rs := pr.r xs) hst ?_ hl hmρ.le (by positivity) hL
      ((hb x hx).1 q) ((hb x hx).2 q) ?_ (hs.lip x xs (hx.trans h4) hxs q)
    · rw [hqe]; exact heq
    · have := taylor hs hL (hx.trans h4)
      have e : pr.r xs - pr.r x + pr.J x *ᵥ (x - xs) = pr.r xs - pr.r x - pr.J x *ᵥ (xs - x) := by
        rw [mulVec_sub, mulVec_sub]; abel
      rw [e]; exact this
  refine ⟨hrank, fun x hx => ?_, fun hln hr x hx => ?_⟩
  · have h := hstep x hx
    have hd' : 0 < (m - L * ρ) ^ 2 + l := by positivity
    have hc : M * (L / 2) * nrm (x - xs) ^ 2 ≤ M * (L / 2) * ρ * nrm (x - xs) := by
      have h0 : 0 ≤ M * (L / 2) * nrm (x - xs) := by
        have := nrm_nonneg (x - xs)
        have : 0 ≤ M := by positivity
        positivity
      nlinarith
    have hn := nrm_nonneg (x - xs)
    have h5 : ((m - L * ρ) ^ 2 + l) * nrm (x + dstep (Elt.lin ⟨pr, x⟩) lam - xs) ≤
        ((m - L * ρ) ^ 2 + l) * (θ * nrm (x - xs)) := by nlinarith
    exact le_of_mul_le_mul_left h5 hd'
  · have h := hstep x hx
    have hl0 : l = 0 := by rw [hldef, hln]; rfl
    rw [hl0, hr, nrm_zero, mul_zero, add_zero, add_zero, zero_mul, zero_add] at h
    have hn := nrm_nonneg (x + dstep (Elt.lin ⟨pr, x⟩) lam - xs)
    have hlow' : (m / 2) ^ 2 ≤ (m - L * ρ) ^ 2 := pow_le_pow_left₀ (by positivity) (by linarith) 2
    have h5 : (m / 2) ^ 2 * nrm (x + dstep (Elt.lin ⟨pr, x⟩) lam - xs) ≤ M * (L / 2) * nrm (x - xs) ^ 2 := by nlinarith
    rw [add_mul, one_mul]
    have h6 : nrm (x + dstep (Elt.lin ⟨pr, x⟩) lam - xs) ≤ M * (L / 2) / (m / 2) ^ 2 * nrm (x - xs) ^ 2 := by
      rw [div_mul_eq_mul_div, le_div_iff₀ (by positivity), mul_comm]
      exact h5
    have := sq_nonneg (nrm (x - xs))
    linarith

/-- The optimizers act on the balls by their step maps. -/
theorem nlls_acts (P : Params ℝ) (k : Kind) (lam : Option ℝ) (hl : 0 ≤ lam.getD 0) (eps : ℝ) (pr : Fin n → Prob p d)
    (xs : Fin n → Fin d → ℝ) (θ C ρ : Fin n → ℝ) (hc : ∀ i, Contracts (pr i) (xs i) lam (θ i) (C i) (ρ i))
    (hθ : ∀ i, θ i ≤ 1) (hs0 : 0 ≤ P.stepSize) (hs1 : P.stepSize ≤ 1) :
    Acts P (nlls n p d k ⟨lam, false, eps⟩) (fun i => Near (pr i) (xs i) (ρ i)) (fun _ => stepElt lam P.stepSize)
      (fun i e => (pr i).cost e.x) := by
  refine ⟨fun _ _ _ _ _ => rfl, fun m x hx => ⟨fun i => dstep (x i).lin lam, ?_, fun i => rfl⟩, ?_, ?_⟩
  · have hd : ∀ i, ¬ Deficient ((x i).lin).A := by
      intro i
      obtain ⟨h1, h2⟩ := hx i
      have := (hc i).rank _ h2
      rw [← h1] at this
      exact this
    simp only [nlls]
    rw [solve_dstep k (fun i => (x i).lin) lam hl eps hd]
    rfl
  · rintro i ⟨q, x⟩ ⟨h1, h2⟩
    simp only at h1 h2
    subst h1
    refine ⟨rfl, ?_⟩
    have hr := (hc i).rate x h2
    simp only [stepElt]
    have e : x + P.stepSize • dstep (Elt.lin ⟨pr i, x⟩) lam - xs i =
        (1 - P.stepSize) • (x - xs i) + P.stepSize • (x + dstep (Elt.lin ⟨pr i, x⟩) lam - xs i) := by
      funext j; simp; ring
    rw [e]
    refine lt_of_le_of_lt ((nrm_add _ _).trans (le_of_eq (by rw [nrm_smul, nrm_smul]))) ?_
    rw [abs_of_nonneg (by linarith), abs_of_nonneg hs0]
    have hn := nrm_nonneg (x - xs i)
    have h3 : nrm (x + dstep (Elt.lin ⟨pr i, x⟩) lam - xs i) ≤ nrm (x - xs i) :=
      hr.trans (by nlinarith [hθ i])
    nlinarith
  · rintro i ⟨q, x⟩ ⟨h1, h2⟩
    simp only at h1
    subst h1
    rfl

theorem step_rate {pr : Prob p d} {xs : Fin d → ℝ} {lam : Option ℝ} {θ C ρ s : ℝ} (hc : Contracts pr xs lam θ C ρ)
    (hs0 : 0 ≤ s) (hs1 : s ≤ 1) {e : Elt p d} (he : e ∈ Near pr xs ρ) :
    nrm ((stepElt lam s e).x - xs) ≤ (1 - s * (1 - θ)) * nrm (e.x - xs) := by
  obtain ⟨q, x⟩ := e
  obtain ⟨h1, h2⟩ := he
  simp only at h1 h2
  subst h1
  have hr := hc.rate x h2
  simp only [stepElt]
  have e : x + s • dstep (Elt.lin ⟨q, x⟩) lam - xs =
      (1 - s) • (x - xs) + s • (x + dstep (Elt.lin ⟨q, x⟩) lam - xs) := by
    funext j; simp; ring
  rw [e]
  refine ((nrm_add _ _).trans (le_of_eq (by rw [nrm_smul, nrm_smul]))).trans ?_
  rw [abs_of_nonneg (by linarith), abs_of_nonneg hs0]
  nlinarith

theorem step_near {pr : Prob p d} {xs : Fin d → ℝ} {lam : Option ℝ} {θ C ρ s : ℝ} (hc : Contracts pr xs lam θ C ρ)
    (hθ : θ ≤ 1) (hs0 : 0 ≤ s) (hs1 : s ≤ 1) {e : Elt p d} (he : e ∈ Near pr xs ρ) :
    stepElt lam s e ∈ Near pr xs ρ := by
  refine ⟨he.1, lt_of_le_of_lt (step_rate hc hs0 hs1 he) ?_⟩
  have := he.2
  have := nrm_nonneg (e.x - xs)
  nlinarith [mul_nonneg hs0 (sub_nonneg.2 hθ)]

theorem iter_rate {pr : Prob p d} {xs : Fin d → ℝ} {lam : Option ℝ} {θ C ρ s : ℝ} (hc : Contracts pr xs lam θ C ρ)
    (hθ0 : 0 ≤ θ) (hθ : θ ≤ 1) (hs0 : 0 ≤ s) (hs1 : s ≤ 1) {e : Elt p d} (he : e ∈ Near pr xs ρ) (j : Nat) :
    nrm (((stepElt lam s)^[j] e).x - xs) ≤ (1 - s * (1 - θ)) ^ j * nrm (e.x - xs) := by
  induction j with
  | zero => simp
  | succ j ih =>
    rw [Function.iterate_succ_apply', pow_succ]
    have hm := iter_mem (fun x hx => step_near hc hθ hs0 hs1 hx) he j
    have h := step_rate hc hs0 hs1 hm
    have h0 : 0 ≤ 1 - s * (1 - θ) := by nlinarith
    nlinarith [mul_le_mul_of_nonneg_left ih h0]

end Verif.Conv
