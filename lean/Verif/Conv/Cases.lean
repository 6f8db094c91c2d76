import Verif.Conv.Quad
/-!
# Local convergence: a problem that meets the hypotheses, and what fails without them (C92)
-/
namespace Verif.Conv
open Matrix Verif.Steps Verif.Layer Verif.Nlopt
open scoped Classical Topology
variable {p d n : Nat}

/-! ### The Rosenbrock function -/

/-- Errors `10 (x1 - x0²)` and `1 - x0`. -/
def rosen : Prob 2 2 := ⟨fun x => ![10 * (x 1 - x 0 ^ 2), 1 - x 0], fun x => !![-20 * x 0, 10; -1, 0]⟩

theorem rosen_regular : Regular rosen ![1, 1] := by
  refine ⟨?_, Filter.Eventually.of_forall fun x => ?_, ?_⟩
  · refine ContDiff.contDiffAt ?_
    rw [contDiff_pi]
    intro i
    fin_cases i
    · show ContDiff ℝ 2 fun x : Fin 2 → ℝ => 10 * (x 1 - x 0 ^ 2)
      fun_prop
    · show ContDiff ℝ 2 fun x : Fin 2 → ℝ => 1 - x 0
      fun_prop
  · rw [hasFDerivAt_pi']
    have a0 := hasFDerivAt_apply (𝕜 := ℝ) (0 : Fin 2) x
    have a1 := hasFDerivAt_apply (𝕜 := ℝ) (1 : Fin 2) x
    intro i
    fin_cases i
    · refine ((a1.sub (a0.pow 2)).const_mul 10).congr_fderiv ?_
      ext v
      simp [rosen, dotProduct, Fin.sum_univ_two]
      ring
    · refine (a0.const_sub 1).congr_fderiv ?_
      ext v
      simp [rosen, dotProduct, Fin.sum_univ_two]
  · rintro ⟨w, hw, h⟩
    apply hw
    have h0 := congrFun h 0
    have h1 := congrFun h 1
    simp [rosen, Matrix.mulVec, dotProduct, Fin.sum_univ_two] at h0 h1
    funext j; fin_cases j
    · exact h1
    · simpa [h1] using h0

theorem rosen_zero : rosen.r ![1, 1] = 0 := by
  funext i; fin_cases i <;> simp [rosen]

/-- Gauss–Newton converges quadratically to the minimum of the Rosenbrock function. -/
example (k : Kind) := gn_quadratic (n := 3) k 0 (fun _ => rosen) (fun _ => ![1, 1]) (fun _ => rosen_regular)
  (fun _ => rosen_zero)
example (k : Kind) := lm_linear (n := 3) k (1 / 1000) (by norm_num) 0 (fun _ => rosen) (fun _ => ![1, 1])
  (fun _ => rosen_regular) (fun _ => rosen_zero)

/-! ### Problems whose Jacobian never loses rank -/

theorem nlls_acts_all (P : Params ℝ) (k : Kind) (lam : Option ℝ) (hl : 0 ≤ lam.getD 0) (eps : ℝ) (pr : Fin n → Prob p d)
    (hd : ∀ i x, ¬ Deficient ((pr i).J x)) :
    Acts P (nlls n p d k ⟨lam, false, eps⟩) (fun i => {e | e.pr = pr i}) (fun _ => stepElt lam P.stepSize)
      (fun i e => (pr i).cost e.x) := by
  refine ⟨fun _ _ _ _ _ => rfl, fun m x hx => ⟨fun i => dstep (x i).lin lam, ?_, fun i => rfl⟩, fun i x hx => hx, ?_⟩
  · have hd' : ∀ i, ¬ Deficient ((x i).lin).A := by
      intro i
      have h1 : (x i).pr = pr i := hx i
      have := hd i (x i).x
      rw [← h1] at this
      exact this
    simp only [nlls]
    rw [solve_dstep k (fun i => (x i).lin) lam hl eps hd']
    rfl
  · intro i x hx
    have h1 : x.pr = pr i := hx
    simp only [nlls, h1]

/-! ### A large residual repels Gauss–Newton -/

/-- Errors `x + 1` and `-2x² + x - 1`. -/
def repel : Prob 2 1 := ⟨fun x => ![x 0 + 1, -2 * x 0 ^ 2 + x 0 - 1], fun x => !![1; 1 - 4 * x 0]⟩

theorem repel_cost (x : Fin 1 → ℝ) : repel.cost x = 1 + x 0 ^ 2 * (2 * x 0 ^ 2 - 2 * x 0 + 3) := by
  simp [Prob.cost, repel, Fin.sum_univ_two]
  ring

theorem repel_rank (x : Fin 1 → ℝ) : ¬ Deficient (repel.J x) := by
  rintro ⟨w, hw, h⟩
  apply hw
  have h0 := congrFun h 0
  simp [repel, Matrix.mulVec, dotProduct] at h0
  funext j; fin_cases j; exact h0

theorem repel_smooth : Regular repel ![0] := by
  refine ⟨?_, Filter.Eventually.of_forall fun x => ?_, repel_rank _⟩
  · refine ContDiff.contDiffAt ?_
    rw [contDiff_pi]
    intro i
    fin_cases i
    · show ContDiff ℝ 2 fun x : Fin 1 → ℝ => x 0 + 1
      fun_prop
    · show ContDiff ℝ 2 fun x : Fin 1 → ℝ => -2 * x 0 ^ 2 + x 0 - 1
      fun_prop
  · rw [hasFDerivAt_pi']
    have a0 := hasFDerivAt_apply (𝕜 := ℝ) (0 : Fin 1) x
    intro i
    fin_cases i
    · refine (a0.add_const 1).congr_fderiv ?_
      ext v
      simp [repel, dotProduct]
    · refine ((((a0.pow 2).const_mul (-2)).add a0).sub_const 1).congr_fderiv ?_
      ext v
      simp [repel, dotProduct]
      ring

theorem repel_step (x : Fin 1 → ℝ) :
    (2 - 8 * x 0 + 16 * x 0 ^ 2) * (stepElt none 1 ⟨repel, x⟩).x 0 = x 0 * (8 * x 0 ^ 2 - 2 * x 0 - 4) := by
  have hpd := dmat_posDef (L := Elt.lin ⟨repel, x⟩) (lam := none) (le_refl _) (repel_rank x)
  have heq := (solve_unique hpd.det_pos.ne' (Elt.lin ⟨repel, x⟩).Atb (dstep (Elt.lin ⟨repel, x⟩) none)).1 rfl
  have h0 := congrFun heq 0
  set δ := dstep (Elt.lin ⟨repel, x⟩) none with hδ
  have hs : (stepElt none 1 ⟨repel, x⟩).x 0 = x 0 + δ 0 := by simp [stepElt, hδ]
  rw [hs]
  simp [dmat, Lin.AtA, Lin.Atb, Elt.lin, repel, Matrix.mulVec, dotProduct, Matrix.mul_apply, Fin.sum_univ_two,
    Matrix.transpose_apply] at h0
  linarith

/-- The errors of `repel` are smooth with a Jacobian of full rank, and 0 is the only minimum of the error
metric; but from every other value within 1/20 one Gauss–Newton step moves away from it, by a factor of at
least 3/2, and increases the error; the call still succeeds. -/
theorem gn_repelled (k : Kind) (eps : ℝ) :
    Regular repel ![0] ∧ StrictMin repel.cost ![0] ∧ Stationary repel ![0] ∧
    ∀ (P : Params ℝ), 0 < P.absTol → P.stepSize = 1 → P.maxIter = 1 →
      ∀ (md : Mode), md = .unroll ∨ md = .dlm → ∀ (bwd : Option Int) (grad : Bool) (x0 : Fin 1 → ℝ),
        x0 0 ≠ 0 → |x0 0| ≤ 1 / 20 →
        ∃ xf info, optimizeImpl P (nlls 1 2 1 k ⟨none, false, eps⟩) md bwd grad (fun _ => ⟨repel, x0⟩) () = .ok xf info ∧
          3 / 2 * |x0 0| ≤ |(xf 0).x 0| ∧ repel.cost x0 < repel.cost (xf 0).x := by
  refine ⟨repel_smooth, ?_, ?_, fun P hP hs hmax md hmd bwd grad x0 hne hx => ?_⟩
  · intro y hy
    rw [repel_cost, repel_cost]
    have hy0 : y 0 ≠ 0 := by
      intro h; apply hy; funext j; fin_cases j; exact h
    have h1 : 0 < y 0 ^ 2 := by positivity
    have h2 : 0 < 2 * y 0 ^ 2 - 2 * y 0 + 3 := by nlinarith [sq_nonneg (y 0 - 1 / 2)]
    have := mul_pos h1 h2
    simp
    linarith
  · unfold Stationary
    funext j; fin_cases j
    simp [repel, Matrix.mulVec, dotProduct, Fin.sum_univ_two, Matrix.transpose_apply]
  · have hA := nlls_acts_all P k none (le_refl _) eps (fun _ : Fin 1 => repel) (fun _ x => repel_rank x)
    obtain ⟨xf, info, g1, g2⟩ := act_optimize hA hP (x0 := fun _ => ⟨repel, x0⟩) (fun _ => rfl) md hmd bwd grad ()
    refine ⟨xf, info, g1, ?_⟩
    obtain ⟨j, a1, a2, a3, _⟩ := g2.val 0
    rw [hmax] at a1 a3
    have hj : j = 1 := by
      have := a3 (by decide)
      have : (1 : Int).toNat = 1 := rfl
      omega
    rw [hj, hs, Function.iterate_one] at a2
    rw [a2]
    have h := repel_step x0
    set y := (stepElt none 1 ⟨repel, x0⟩).x with hy
    set t := x0 0 with ht
    rw [abs_le] at hx
    have hD : 0 < 2 - 8 * t + 16 * t ^ 2 := by nlinarith [sq_nonneg (4 * t - 1)]
    have key : 3 / 2 * |t| ≤ |y 0| := by
      have e : (2 - 8 * t + 16 * t ^ 2) * |y 0| = |t| * |8 * t ^ 2 - 2 * t - 4| := by
        rw [← abs_mul, ← h, abs_mul, abs_of_pos hD]
      have b : 3 / 2 * (2 - 8 * t + 16 * t ^ 2) ≤ |8 * t ^ 2 - 2 * t - 4| := by
        rw [abs_of_neg (by nlinarith)]
        nlinarith
      have c := mul_le_mul_of_nonneg_left b (abs_nonneg t)
      have : (2 - 8 * t + 16 * t ^ 2) * (3 / 2 * |t|) ≤ (2 - 8 * t + 16 * t ^ 2) * |y 0| := by rw [e]; linarith
      exact le_of_mul_le_mul_left this hD
    refine ⟨key, ?_⟩
    rw [repel_cost, repel_cost]
    have hsq : 9 / 4 * t ^ 2 ≤ y 0 ^ 2 := by
      have := pow_le_pow_left₀ (by positivity) key 2
      rw [mul_pow, sq_abs, sq_abs] at this
      linarith
    have h1 : 5 / 2 ≤ 2 * y 0 ^ 2 - 2 * y 0 + 3 := by nlinarith [sq_nonneg (2 * y 0 - 1)]
    have h2 : 2 * t ^ 2 - 2 * t + 3 ≤ 4 := by nlinarith
    have h3 : 0 < t ^ 2 := by positivity
    have h4 := mul_le_mul hsq h1 (by norm_num) (sq_nonneg (y 0))
    rw [← ht]
    nlinarith

/-! ### Fixed damping slows the convergence down to the rate of the theorem -/

/-- The error `x`. -/
def ident : Prob 1 1 := ⟨fun x => x, fun _ => 1⟩

theorem ident_rank (x : Fin 1 → ℝ) : ¬ Deficient (ident.J x) := by
  rintro ⟨w, hw, h⟩
  exact hw (by simpa [ident] using h)

theorem ident_step (lam : ℝ) (hl : 0 ≤ lam) (x : Fin 1 → ℝ) :
    (stepElt (some lam) 1 ⟨ident, x⟩).x = (lam / (1 + lam)) • x := by
  have hpd := dmat_posDef (L := Elt.lin ⟨ident, x⟩) (lam := some lam) (by simpa using hl) (ident_rank x)
  have heq := (solve_unique hpd.det_pos.ne' (Elt.lin ⟨ident, x⟩).Atb (dstep (Elt.lin ⟨ident, x⟩) (some lam))).1 rfl
  have h0 := congrFun heq 0
  set δ := dstep (Elt.lin ⟨ident, x⟩) (some lam) with hδ
  simp [dmat, Lin.AtA, Lin.Atb, Elt.lin, ident, Matrix.mulVec, dotProduct] at h0
  funext j; fin_cases j
  simp only [stepElt, ← hδ, one_smul, Pi.add_apply, Pi.smul_apply, smul_eq_mul]
  have h1 : (1 : ℝ) + lam ≠ 0 := by linarith
  show x 0 + δ 0 = lam / (1 + lam) * x 0
  field_simp
  linarith

/-- On the error `x` (where `m = 1` and `L = 0`) every step of Levenberg–Marquardt multiplies the value by
exactly `λ / (1 + λ)`, the infimum of the rates allowed by `local_linear`. -/
theorem lm_rate_sharp (k : Kind) (lam : ℝ) (hl : 0 ≤ lam) (eps : ℝ) (P : Params ℝ) (hP : 0 < P.absTol)
    (hs : P.stepSize = 1) (md : Mode) (hmd : md = .unroll ∨ md = .dlm) (bwd : Option Int) (grad : Bool)
    (x0 : Fin 1 → ℝ) :
    ∃ xf info, optimizeImpl P (nlls 1 1 1 k ⟨some lam, false, eps⟩) md bwd grad (fun _ => ⟨ident, x0⟩) () = .ok xf info ∧
      Outcome P ident (xf 0) (info.status 0) fun j x => x = (lam / (1 + lam)) ^ j • x0 := by
  have hA := nlls_acts_all P k (some lam) (by simpa using hl) eps (fun _ : Fin 1 => ident) (fun _ x => ident_rank x)
  obtain ⟨xf, info, g1, g2⟩ := act_optimize hA hP (x0 := fun _ => ⟨ident, x0⟩) (fun _ => rfl) md hmd bwd grad ()
  refine ⟨xf, info, g1, ?_⟩
  obtain ⟨j, a1, a2, a3, a4, _⟩ := g2.val 0
  refine ⟨by rw [a2, iter_pr], j, a1, fun h => a3 (by omega), fun h => (a4 h).1, ?_⟩
  rw [a2, hs]
  clear a1 a2 a3 a4
  have : ∀ j, (stepElt (some lam) 1)^[j] (⟨ident, x0⟩ : Elt 1 1) = ⟨ident, (lam / (1 + lam)) ^ j • x0⟩ := by
    intro j
    induction j with
    | zero => simp
    | succ j ih =>
      rw [Function.iterate_succ_apply', ih]
      have := ident_step lam hl ((lam / (1 + lam)) ^ j • x0)
      have e : stepElt (some lam) 1 (⟨ident, (lam / (1 + lam)) ^ j • x0⟩ : Elt 1 1) =
          ⟨ident, (stepElt (some lam) 1 (⟨ident, (lam / (1 + lam)) ^ j • x0⟩ : Elt 1 1)).x⟩ := rfl
      rw [e, this, smul_smul, ← pow_succ']
  rw [this j]

example : Stationary ident 0 ∧ Lower ident 0 1 ∧ Smooth ident 0 0 1 := by
  refine ⟨by simp [Stationary, ident], fun v => by simp [ident], fun x _ => ?_, fun x y _ _ v => by simp [ident, nrm_zero]⟩
  refine (hasFDerivAt_id x).congr_fderiv ?_
  ext v; simp [ident]

/-! ### A problem with a small residual -/

/-- Errors `x` and `1 + x²/10`: the residual at the minimum 0 is 1. -/
noncomputable def bowl : Prob 2 1 := ⟨fun x => ![x 0, 1 + x 0 ^ 2 / 10], fun x => !![1; x 0 / 5]⟩

theorem nrm_one (v : Fin 1 → ℝ) : nrm v = |v 0| := by
  unfold nrm
  rw [Fin.sum_univ_one, Real.sqrt_sq_eq_abs]

theorem bowl_smooth : Smooth bowl 0 (1 / 5) 1 := by
  refine ⟨fun x _ => ?_, fun x y _ _ v => ?_⟩
  · rw [hasFDerivAt_pi']
    have a0 := hasFDerivAt_apply (𝕜 := ℝ) (0 : Fin 1) x
    intro i
    fin_cases i
    · refine a0.congr_fderiv ?_
      ext v
      simp [bowl, dotProduct]
    · have a1 : HasFDerivAt (fun x : Fin 1 → ℝ => 1 + (1 / 10) * x 0 ^ 2) _ x := ((a0.pow 2).const_mul (1 / 10)).const_add 1
      have e : (fun x : Fin 1 → ℝ => bowl.r x 1) = fun x => 1 + (1 / 10) * x 0 ^ 2 := by
        funext x; simp [bowl]; ring
      show HasFDerivAt (fun x : Fin 1 → ℝ => bowl.r x 1) _ x
      rw [e]
      refine a1.congr_fderiv ?_
      ext v
      simp [bowl, dotProduct]
      ring
  · rw [nrm_one, nrm_one]
    have e : (bowl.J x - bowl.J y) *ᵥ v = ![0, (x 0 - y 0) / 5 * v 0] := by
      funext i; fin_cases i <;> simp [bowl, Matrix.mulVec, dotProduct]
      left; ring
    rw [e]
    unfold nrm
    simp only [Fin.sum_univ_two, Matrix.cons_val_zero, Matrix.cons_val_one]
    rw [zero_pow two_ne_zero, zero_add, Real.sqrt_sq_eq_abs, abs_mul, abs_div, Pi.sub_apply]
    refine le_of_eq ?_
    rw [abs_of_pos (by norm_num : (0 : ℝ) < 5)]
    ring

theorem bowl_lower : Lower bowl 0 1 := by
  intro v
  have e : bowl.J 0 *ᵥ v = ![v 0, 0] := by
    funext i; fin_cases i <;> simp [bowl, Matrix.mulVec, dotProduct]
  rw [e, nrm_one, one_mul]
  unfold nrm
  simp only [Fin.sum_univ_two, Matrix.cons_val_zero, Matrix.cons_val_one]
  rw [zero_pow two_ne_zero, add_zero, Real.sqrt_sq_eq_abs]

theorem bowl_stationary : Stationary bowl 0 := by
  unfold Stationary
  funext j; fin_cases j
  simp [bowl, Matrix.mulVec, dotProduct, Fin.sum_univ_two, Matrix.transpose_apply]

theorem bowl_resid : nrm (bowl.r 0) = 1 := by
  unfold nrm; simp [bowl]

example (k : Kind) := local_converges (n := 3) k none (le_refl _) 0 (fun _ => bowl) (fun _ => 0) (fun _ => 1 / 5)
  (fun _ => 1) (fun _ => 1) (fun _ => bowl_smooth) (fun _ => one_pos) (fun _ => by norm_num) (fun _ => bowl_stationary)
  (fun _ => one_pos) (fun _ => bowl_lower) (fun _ => by rw [bowl_resid]; norm_num)
example (k : Kind) := local_linear (n := 3) k none (le_refl _) 0 (fun _ => bowl) (fun _ => 0) (fun _ => 1 / 5)
  (fun _ => 1) (fun _ => 1) (fun _ => 1 / 4) (fun _ => bowl_smooth) (fun _ => one_pos) (fun _ => by norm_num)
  (fun _ => bowl_stationary) (fun _ => one_pos) (fun _ => bowl_lower) (fun _ => by rw [bowl_resid]; norm_num)
  (fun _ => by norm_num)

end Verif.Conv
