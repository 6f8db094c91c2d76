import Verif.Layer.Samples
import Mathlib.Probability.Distributions.Gaussian.Real
import Mathlib.Probability.Independence.Integration
/-!
# Properties of `compute_samples` (C82)
-/
namespace Verif.Layer
open Matrix Verif.Steps Verif.Embodied MeasureTheory ProbabilityTheory
open scoped Classical
variable {p d n m : Nat}

/-! ### Specification -/

/-- The values of the vector variables, one after the other. -/
noncomputable def point : List SVar → Nat → ℝ
  | [], _ => 0
  | v :: vs, k => if k < v.dof then (v.val.getD fun _ => 0) k else point vs (k - v.dof)

/-- The total number of degrees of freedom. -/
def dofs (vs : List SVar) : Nat := (vs.map SVar.dof).sum

/-- Random vectors whose entries have mean 0, variance 1 and are uncorrelated. -/
structure White {Ω : Type} [MeasurableSpace Ω] (P : Measure Ω) (Y : Ω → Fin m → Fin d → ℝ) : Prop where
  int1 : ∀ s k, Integrable (fun ω => Y ω s k) P
  int2 : ∀ s k s' l, Integrable (fun ω => Y ω s k * Y ω s' l) P
  mean : ∀ s k, ∫ ω, Y ω s k ∂P = 0
  cov : ∀ s k s' l, ∫ ω, Y ω s k * Y ω s' l ∂P = if s = s' ∧ k = l then 1 else 0

/-- What `torch.normal(zeros, ones)` draws: independent standard normal numbers. -/
noncomputable def stdNormal (m d : Nat) : Measure (Fin m × Fin d → ℝ) :=
  Measure.pi fun _ => gaussianReal 0 1

instance : IsProbabilityMeasure (stdNormal m d) := by unfold stdNormal; infer_instance

/-! ### Lemmas -/

theorem stdNormal_white : White (stdNormal m d) (fun ω s k => ω (s, k)) := by
  have hm : ∀ i : Fin m × Fin d, MemLp (fun ω : Fin m × Fin d → ℝ => ω i) 2 (stdNormal m d) := fun i =>
    (memLp_id_gaussianReal (μ := 0) (v := 1) 2).comp_measurePreserving
      (measurePreserving_eval (fun _ : Fin m × Fin d => gaussianReal 0 1) i)
  have hmean : ∀ i : Fin m × Fin d, ∫ ω, ω i ∂(stdNormal m d) = 0 := by
    intro i
    have h := (measurePreserving_eval (fun _ : Fin m × Fin d => gaussianReal 0 1) i)
    have := integral_map (μ := stdNormal m d) (φ := Function.eval i) (f := fun x : ℝ => x)
      (measurable_pi_apply i).aemeasurable (by fun_prop)
    have e : Measure.map (Function.eval i) (stdNormal m d) = gaussianReal 0 1 := h.map_eq
    rw [e, integral_id_gaussianReal] at this
    exact this.symm
  refine ⟨fun s k => (hm _).integrable (by norm_num), fun s k s' l => (hm _).integrable_mul (hm _), fun s k => hmean _, ?_⟩
  intro s k s' l
  split_ifs with hc
  · obtain ⟨rfl, rfl⟩ := hc
    have hv : Var[fun x : ℝ => x; gaussianReal 0 1] = 1 := by
      have := variance_fun_id_gaussianReal (μ := 0) (v := 1); simp
    have h2 := variance_eq_integral (X := fun x : ℝ => x) (μ := gaussianReal 0 1) (by fun_prop)
    rw [hv, integral_id_gaussianReal] at h2
    have h := (measurePreserving_eval (fun _ : Fin m × Fin d => gaussianReal 0 1) (s, k))
    have := integral_map (μ := stdNormal m d) (φ := Function.eval (s, k)) (f := fun x : ℝ => x * x)
      (measurable_pi_apply _).aemeasurable (by fun_prop)
    have e : Measure.map (Function.eval (s, k)) (stdNormal m d) = gaussianReal 0 1 := h.map_eq
    rw [e] at this
    rw [show (∫ ω : Fin m × Fin d → ℝ, ω (s, k) * ω (s, k) ∂stdNormal m d) = _ from this.symm, h2]
    congr 1; funext x; ring
  · have hne : (s, k) ≠ (s', l) := fun h => hc (by simpa using h)
    have hi : iIndepFun (fun (i : Fin m × Fin d) (ω : Fin m × Fin d → ℝ) => ω i) (stdNormal m d) :=
      iIndepFun_pi (μ := fun _ : Fin m × Fin d => gaussianReal 0 1) (X := fun _ => id) fun i => aemeasurable_id
    have := (hi.indepFun hne).integral_fun_mul_eq_mul_integral (hm _).aestronglyMeasurable (hm _).aestronglyMeasurable
    rw [this, hmean, zero_mul]

theorem allOk_ok {α : Type} : ∀ {n : Nat} {f : Fin n → Except Exc α} {g : Fin n → α},
    allOk f = .ok g ↔ ∀ i, f i = .ok (g i)
  | 0, f, g => by
    simp only [allOk, Except.ok.injEq, IsEmpty.forall_iff, iff_true]
    exact Subsingleton.elim _ _
  | n + 1, f, g => by
    simp only [allOk]
    cases h0 : f 0 with
    | error e =>
      constructor
      · intro h; simp [bind, Except.bind] at h
      · intro h; have := h 0; rw [h0] at this; cases this
    | ok a =>
      cases hr : allOk (fun i : Fin n => f i.succ) with
      | error e =>
        constructor
        · intro h; simp [bind, Except.bind] at h
        · intro h
          have := (allOk_ok (f := fun i : Fin n => f i.succ) (g := fun i => g i.succ)).2 fun i => h _
          rw [hr] at this; cases this
      | ok r =>
        have hr' := allOk_ok.1 hr
        constructor
        · intro h
          simp only [bind, Except.bind, Except.ok.injEq] at h
          subst h
          intro i
          refine Fin.cases ?_ (fun j => ?_) i
          · rw [h0]; rfl
          · rw [hr' j]; rfl
        · intro h
          simp only [bind, Except.bind, Except.ok.injEq]
          funext i
          refine Fin.cases ?_ (fun j => ?_) i
          · have := h 0; rw [h0] at this; cases this; rfl
          · have := h j.succ; rw [hr' j] at this; exact Except.ok.inj this

theorem allOk_error {α : Type} : ∀ {n : Nat} {f : Fin n → Except Exc α},
    (∀ i e, f i = .error e → e = .runtime) → (∃ i e, f i = .error e) → allOk f = .error .runtime
  | 0, f, _, ⟨i, _⟩ => i.elim0
  | n + 1, f, hall, hex => by
    simp only [allOk]
    cases h0 : f 0 with
    | error e => cases hall 0 e h0; rfl
    | ok a =>
      have := allOk_error (f := fun i : Fin n => f i.succ) (fun i e h => hall _ e h) (by
        obtain ⟨i, e, hi⟩ := hex
        refine Fin.cases ?_ (fun j hj => ⟨j, e, hj⟩) i hi
        intro h; rw [h0] at h; cases h)
      rw [this]; rfl

theorem assemble_ok : ∀ (vs : List SVar) (start : Nat) (delta out : Nat → ℝ), (∀ v ∈ vs, v.val.isSome) →
    ∃ r, assemble vs start delta out = .ok r ∧ (∀ k < start, r k = out k) ∧
      ∀ k < dofs vs, r (start + k) = point vs k + delta (start + k)
  | [], start, delta, out, _ => ⟨out, rfl, fun _ _ => rfl, fun k h => by simp [dofs] at h⟩
  | v :: vs, start, delta, out, h => by
    obtain ⟨x, hx⟩ := Option.isSome_iff_exists.1 (h v (by simp))
    simp only [assemble, hx]
    obtain ⟨r, h1, h2, h3⟩ := assemble_ok vs (start + v.dof) delta
      (fun k => if start ≤ k ∧ k < start + v.dof then x (k - start) + delta k else out k)
      (fun w hw => h w (by simp [hw]))
    refine ⟨r, h1, fun k hk => ?_, ?_⟩
    · rw [h2 k (by omega), if_neg (by omega)]
    · intro k hk
      by_cases hkv : k < v.dof
      · rw [h2 _ (by omega), if_pos (by omega)]
        simp only [point, if_pos hkv, hx, Option.getD_some]
        congr 2; omega
      · have := h3 (k - v.dof) (by simp [dofs] at hk ⊢; omega)
        rw [show start + v.dof + (k - v.dof) = start + k by omega] at this
        rw [this]
        simp only [point, if_neg hkv]

theorem assemble_error : ∀ (vs : List SVar) (start : Nat) (delta out : Nat → ℝ), (∃ v ∈ vs, v.val = none) →
    assemble vs start delta out = .error .runtime
  | [], _, _, _, h => by simp at h
  | v :: vs, start, delta, out, h => by
    unfold assemble
    cases hv : v.val with
    | none => rfl
    | some x =>
      refine assemble_error vs _ _ _ ?_
      obtain ⟨w, hw, hn⟩ := h
      rcases List.mem_cons.1 hw with rfl | hw
      · rw [hv] at hn; cases hn
      · exact ⟨w, hw, hn⟩

theorem scaled_posDef {L : Lin ℝ p d} {T : ℝ} (hT : 0 < T) (h : ¬ Deficient L.A) :
    ((1 / T) • L.AtA).PosDef :=
  ((gram_posDef_iff L).2 fun h0 => h ((deficient_iff L).2 h0)).smul (by positivity)

theorem scaled_symm (L : Lin ℝ p d) (T : ℝ) : ((1 / T) • L.AtA)ᵀ = (1 / T) • L.AtA := by
  rw [transpose_smul, gram_symm]

/-- The factor that `compute_samples` uses. -/
theorem deltaSample_ok {L : Lin ℝ p d} {T : ℝ} (hT : 0 < T) (h : ¬ Deficient L.A) :
    ∃ C : Matrix (Fin d) (Fin d) ℝ, (∀ i j, i < j → C i j = 0) ∧ (∀ i, 0 < C i i) ∧ C * Cᵀ = (1 / T) • L.AtA ∧
      C.det ≠ 0 ∧ ∀ δ y, deltaSample L δ T y = .ok ((Cᵀ)⁻¹ *ᵥ y + δ) := by
  obtain ⟨C, hC⟩ := Option.isSome_iff_exists.1 ((chol_case (scaled_symm L T)).1.2 (scaled_posDef hT h))
  have hs := cholesky_spec hC
  refine ⟨C, hs.lower, hs.pos, (chol_case (scaled_symm L T)).2 C hC, hs.det_pos.ne', fun δ y => ?_⟩
  simp only [deltaSample, hC]

/-- What `compute_samples` returns when it returns. -/
theorem computeSamples_ok (k : Kind) (L : Fin n → Lin ℝ p d) (vars : Fin n → List SVar) {T : ℝ} (hT : 0 < T)
    (hL : ∀ i, ¬ Deficient (L i).A) (hv : ∀ i, ∀ v ∈ vars i, v.val.isSome) (hd : ∀ i, dofs (vars i) = d) :
    ∃ (δ : Fin n → Fin d → ℝ) (C : Fin n → Matrix (Fin d) (Fin d) ℝ), (∀ i, StrictMin (resid (L i)) (δ i)) ∧
      (∀ i, C i * (C i)ᵀ = (1 / T) • (L i).AtA ∧ (C i).det ≠ 0) ∧
      ∀ y : Fin m → Fin d → ℝ, ∃ out, computeSamples k true L vars T y = .ok out ∧
        ∀ i s (a : Fin d), out i s a = point (vars i) a + δ i a + (((C i)ᵀ)⁻¹ *ᵥ y s) a := by
  obtain ⟨δ, h1, h2⟩ := (solve_is_least_squares k true L true (1 / 100000000)).1 hL
  choose C hl hp hC hdet hs using fun i => deltaSample_ok (L := L i) hT (hL i)
  refine ⟨δ, C, h2, fun i => ⟨hC i, hdet i⟩, fun y => ?_⟩
  have hds : (allOk fun i => allOk fun s => deltaSample (L i) (δ i) T (y s)) =
      .ok fun i s => ((C i)ᵀ)⁻¹ *ᵥ y s + δ i :=
    allOk_ok.2 fun i => allOk_ok.2 fun s => hs i _ _
  choose r hr _ hr2 using fun (i : Fin n) (s : Fin m) =>
    assemble_ok (vars i) 0 (ext0 (((C i)ᵀ)⁻¹ *ᵥ y s + δ i)) (fun _ => 0) (hv i)
  refine ⟨r, ?_, fun i s a => ?_⟩
  · unfold computeSamples
    rw [h1]
    simp only [bind, Except.bind, hds, if_true]
    exact allOk_ok.2 fun i => allOk_ok.2 fun s => hr i s
  · have := hr2 i s a (by rw [hd i]; exact a.2)
    rw [Nat.zero_add] at this
    rw [this]
    simp only [ext0, a.2, dif_pos, Pi.add_apply]
    ring

theorem inv_transpose_inv {C M : Matrix (Fin d) (Fin d) ℝ} {T : ℝ} (hT : 0 < T) (h : C * Cᵀ = (1 / T) • M)
    (hM : M.det ≠ 0) : (Cᵀ)⁻¹ * C⁻¹ = T • M⁻¹ := by
  rw [← Matrix.mul_inv_rev, h]
  refine Matrix.inv_eq_right_inv ?_
  rw [Matrix.smul_mul, Matrix.mul_smul, smul_smul, Matrix.mul_nonsing_inv _ (isUnit_iff_ne_zero.2 hM),
    one_div_mul_cancel hT.ne', one_smul]

/-! ### C82 -/

/-- For vector variables, default data type, `temperature > 0` and no rank deficient batch element,
`compute_samples` returns, for every draw of the random numbers, samples around the Gauss-Newton step: the
deviation `u` of sample `s` has `‖A u‖² = temperature · ‖y s‖²`. -/
theorem compute_samples_spec (k : Kind) (L : Fin n → Lin ℝ p d) (vars : Fin n → List SVar) {T : ℝ} (hT : 0 < T)
    (hL : ∀ i, ¬ Deficient (L i).A) (hv : ∀ i, ∀ v ∈ vars i, v.val.isSome) (hd : ∀ i, dofs (vars i) = d)
    (y : Fin m → Fin d → ℝ) :
    ∃ (δ : Fin n → Fin d → ℝ) (out : Fin n → Fin m → Nat → ℝ),
      (∀ i, StrictMin (resid (L i)) (δ i)) ∧ computeSamples k true L vars T y = .ok out ∧
      ∀ i s, ∃ u : Fin d → ℝ, (∀ a : Fin d, out i s a = point (vars i) a + δ i a + u a) ∧
        ∑ r, ((L i).A *ᵥ u) r ^ 2 = T * ∑ a, y s a ^ 2 := by
  obtain ⟨δ, C, h1, h2, h3⟩ := computeSamples_ok (m := m) k L vars hT hL hv hd
  obtain ⟨out, h4, h5⟩ := h3 y
  refine ⟨δ, out, h1, h4, fun i s => ⟨_, fun a => h5 i s a, ?_⟩⟩
  set u := ((C i)ᵀ)⁻¹ *ᵥ y s with hu
  obtain ⟨hC, hdet⟩ := h2 i
  have hy : (C i)ᵀ *ᵥ u = y s := by
    rw [hu, mulVec_mulVec, Matrix.mul_nonsing_inv _ (by rw [det_transpose]; exact isUnit_iff_ne_zero.2 hdet), one_mulVec]
  have e1 : ∑ r, ((L i).A *ᵥ u) r ^ 2 = u ⬝ᵥ ((L i).AtA *ᵥ u) := by
    rw [dot_AtA]; unfold dotProduct; exact Finset.sum_congr rfl fun r _ => by ring
  have e2 : (L i).AtA = T • (C i * (C i)ᵀ) := by
    rw [hC, smul_smul]; rw [mul_one_div_cancel hT.ne', one_smul]
  rw [e1, e2, smul_mulVec, dotProduct_smul, smul_eq_mul, ← mulVec_mulVec, hy, dotProduct_mulVec,
    ← mulVec_transpose, hy]
  congr 1
  unfold dotProduct; exact Finset.sum_congr rfl fun r _ => by ring

/-- The samples have, over uncorrelated random numbers of mean 0 and variance 1, the Gauss-Newton point as
mean and `temperature · (AᵀA)⁻¹` as covariance; different samples of a batch element are uncorrelated. -/
theorem compute_samples_moments {Ω : Type} [MeasurableSpace Ω] (P : Measure Ω) [IsProbabilityMeasure P]
    (Y : Ω → Fin m → Fin d → ℝ) (hY : White P Y)
    (k : Kind) (L : Fin n → Lin ℝ p d) (vars : Fin n → List SVar) {T : ℝ} (hT : 0 < T)
    (hL : ∀ i, ¬ Deficient (L i).A) (hv : ∀ i, ∀ v ∈ vars i, v.val.isSome) (hd : ∀ i, dofs (vars i) = d) :
    ∃ (δ : Fin n → Fin d → ℝ) (out : Ω → Fin n → Fin m → Nat → ℝ), (∀ i, StrictMin (resid (L i)) (δ i)) ∧
      (∀ ω, computeSamples k true L vars T (Y ω) = .ok (out ω)) ∧
      ∀ i s, (∀ a : Fin d, ∫ ω, out ω i s a ∂P = point (vars i) a + δ i a) ∧
        ∀ s' (a b : Fin d), ∫ ω, (out ω i s a - (point (vars i) a + δ i a)) *
            (out ω i s' b - (point (vars i) b + δ i b)) ∂P =
          if s = s' then T * ((L i).AtA)⁻¹ a b else 0 := by
  obtain ⟨δ, C, h1, h2, h3⟩ := computeSamples_ok (m := m) k L vars hT hL hv hd
  choose out h4 h5 using fun ω => h3 (Y ω)
  refine ⟨δ, out, h1, h4, fun i s => ⟨fun a => ?_, fun s' a b => ?_⟩⟩
  · simp only [h5, mulVec, dotProduct]
    rw [integral_add (integrable_const _) (integrable_finsetSum _ fun l _ => (hY.int1 s l).const_mul _),
      integral_finsetSum _ fun l _ => (hY.int1 s l).const_mul _]
    simp [integral_const_mul, hY.mean]
  · simp only [h5, add_sub_cancel_left, mulVec, dotProduct, Finset.sum_mul_sum]
    have hi2 : ∀ l l', Integrable (fun ω => ((C i)ᵀ)⁻¹ a l * Y ω s l * (((C i)ᵀ)⁻¹ b l' * Y ω s' l')) P := by
      intro l l'
      refine ((hY.int2 s l s' l').const_mul (((C i)ᵀ)⁻¹ a l * ((C i)ᵀ)⁻¹ b l')).congr
        (Filter.Eventually.of_forall fun ω => ?_)
      simp only; ring
    rw [integral_finsetSum _ fun l _ => integrable_finsetSum _ fun l' _ => hi2 l l']
    · have hin : ∀ l l', ∫ ω, ((C i)ᵀ)⁻¹ a l * Y ω s l * (((C i)ᵀ)⁻¹ b l' * Y ω s' l') ∂P =
          ((C i)ᵀ)⁻¹ a l * ((C i)ᵀ)⁻¹ b l' * if s = s' ∧ l = l' then 1 else 0 := by
        intro l l'
        rw [← hY.cov s l s' l', ← integral_const_mul]
        congr 1; funext ω; ring
      simp only [integral_finsetSum _ fun l' _ => hi2 _ l', hin]
      split_ifs with hs
      · have := congrFun (congrFun (inv_transpose_inv hT (h2 i).1 fun h0 => hL i ((deficient_iff _).2 h0)) a) b
        rw [_root_.Matrix.smul_apply, smul_eq_mul] at this
        rw [← this, Matrix.mul_apply]
        refine Finset.sum_congr rfl fun l _ => ?_
        simp only [hs, true_and, mul_ite, mul_one, mul_zero, Finset.sum_ite_eq, Finset.mem_univ, if_true]
        rw [← Matrix.transpose_nonsing_inv, Matrix.transpose_apply, Matrix.transpose_apply]
      · simp [hs]

/-- The same for the numbers that `torch.normal` draws. -/
theorem compute_samples_normal (k : Kind) (L : Fin n → Lin ℝ p d) (vars : Fin n → List SVar) {T : ℝ} (hT : 0 < T)
    (hL : ∀ i, ¬ Deficient (L i).A) (hv : ∀ i, ∀ v ∈ vars i, v.val.isSome) (hd : ∀ i, dofs (vars i) = d) :
    ∃ (δ : Fin n → Fin d → ℝ) (out : (Fin m × Fin d → ℝ) → Fin n → Fin m → Nat → ℝ),
      (∀ i, StrictMin (resid (L i)) (δ i)) ∧
      (∀ ω, computeSamples k true L vars T (fun s a => ω (s, a)) = .ok (out ω)) ∧
      ∀ i s, (∀ a : Fin d, ∫ ω, out ω i s a ∂(stdNormal m d) = point (vars i) a + δ i a) ∧
        ∀ a b : Fin d, ∫ ω, (out ω i s a - (point (vars i) a + δ i a)) *
            (out ω i s b - (point (vars i) b + δ i b)) ∂(stdNormal m d) = T * ((L i).AtA)⁻¹ a b := by
  obtain ⟨δ, out, h1, h2, h3⟩ := compute_samples_moments (stdNormal m d) _ stdNormal_white k L vars hT hL hv hd
  refine ⟨δ, out, h1, h2, fun i s => ⟨(h3 i s).1, fun a b => ?_⟩⟩
  rw [(h3 i s).2 s a b, if_pos rfl]

theorem ex_full : ¬ Deficient (!![1, 0; 0, 2; 1, 1] : Matrix (Fin 3) (Fin 2) ℝ) := by
  rintro ⟨w, hw, h⟩
  refine hw ?_
  have h0 := congrFun h 0
  have h1 := congrFun h 1
  simp [Matrix.mulVec, dotProduct, Fin.sum_univ_succ] at h0 h1
  funext j; fin_cases j
  · exact h0
  · exact h1

/-- A batch of two elements with two vector variables each meets the hypotheses. -/
example : ∃ (δ : Fin 2 → Fin 2 → ℝ) (out : (Fin 10 × Fin 2 → ℝ) → Fin 2 → Fin 10 → Nat → ℝ),
    (∀ i, StrictMin (resid ⟨!![1, 0; 0, 2; 1, 1], ![1, 2, 3]⟩) (δ i)) ∧
    (∀ ω, computeSamples .cholesky true (fun _ => ⟨!![1, 0; 0, 2; 1, 1], ![1, 2, 3]⟩)
      (fun _ => [⟨1, some fun _ => 5⟩, ⟨1, some fun _ => 7⟩]) 2 (fun s a => ω (s, a)) = .ok (out ω)) ∧
    ∀ i s, (∀ a : Fin 2, ∫ ω, out ω i s a ∂(stdNormal 10 2) =
        point [⟨1, some fun _ => 5⟩, ⟨1, some fun _ => 7⟩] a + δ i a) := by
  obtain ⟨δ, out, h1, h2, h3⟩ := compute_samples_normal (n := 2) (m := 10) .cholesky
    (fun _ => (⟨!![1, 0; 0, 2; 1, 1], ![1, 2, 3]⟩ : Lin ℝ 3 2))
    (fun _ => [⟨1, some fun _ => 5⟩, ⟨1, some fun _ => 7⟩]) (T := 2) (by norm_num) (fun _ => ex_full)
    (fun _ v hv => by simp at hv; rcases hv with rfl | rfl <;> rfl) (fun _ => rfl)
  exact ⟨δ, out, h1, h2, fun i s => (h3 i s).1⟩

example : point [⟨1, some fun _ => 5⟩, ⟨2, some fun k => k⟩] 2 = 1 := by simp [point]

/-- With a rank deficient batch element it raises. -/
theorem compute_samples_singular (k : Kind) (isDefault : Bool) (L : Fin n → Lin ℝ p d) (vars : Fin n → List SVar)
    (T : ℝ) (h : ∃ i, Deficient (L i).A) (y : Fin m → Fin d → ℝ) :
    computeSamples k isDefault L vars T y = .error .runtime := by
  unfold computeSamples
  rw [(solve_is_least_squares k isDefault L true (1 / 100000000)).2 h]
  rfl

example : Deficient (!![1, 1; 2, 2] : Matrix (Fin 2) (Fin 2) ℝ) := by
  refine ⟨![1, -1], fun h => by simpa using congrFun h 0, ?_⟩
  funext j; fin_cases j <;> simp [Matrix.mulVec, dotProduct, Fin.sum_univ_succ]

/-- **Defect.** If the data type of the linearization is not torch's default (double precision problems
under the default settings), `compute_samples` raises for every input. -/
theorem compute_samples_dtype_raises (k : Kind) (L : Fin n → Lin ℝ p d) (vars : Fin n → List SVar) {T : ℝ}
    (hT : 0 < T) (y : Fin m → Fin d → ℝ) :
    computeSamples k false L vars T y = .error .runtime := by
  by_cases h : ∃ i, Deficient (L i).A
  · exact compute_samples_singular k false L vars T h y
  · push Not at h
    obtain ⟨δ, h1, h2⟩ := (solve_is_least_squares k false L true (1 / 100000000)).1 h
    choose C hl hp hC hdet hs using fun i => deltaSample_ok (L := L i) hT (h i)
    have hds : (allOk fun i => allOk fun s => deltaSample (L i) (δ i) T (y s)) =
        .ok fun i s => ((C i)ᵀ)⁻¹ *ᵥ y s + δ i :=
      allOk_ok.2 fun i => allOk_ok.2 fun s => hs i _ _
    unfold computeSamples
    rw [h1]
    simp only [bind, Except.bind, hds]
    rfl

/-- **Defect.** If one of the variables is a rotation or a pose, `compute_samples` raises for every nonempty
batch and number of samples. -/
theorem compute_samples_group_raises (k : Kind) (isDefault : Bool) (L : Fin n → Lin ℝ p d) (vars : Fin n → List SVar)
    {T : ℝ} (hT : 0 < T) (hn : 0 < n) (hm : 0 < m) (hg : ∀ i, ∃ v ∈ vars i, v.val = none) (y : Fin m → Fin d → ℝ) :
    computeSamples k isDefault L vars T y = .error .runtime := by
  cases isDefault
  · exact compute_samples_dtype_raises k L vars hT y
  by_cases h : ∃ i, Deficient (L i).A
  · exact compute_samples_singular k true L vars T h y
  · push Not at h
    obtain ⟨δ, h1, h2⟩ := (solve_is_least_squares k true L true (1 / 100000000)).1 h
    choose C hl hp hC hdet hs using fun i => deltaSample_ok (L := L i) hT (h i)
    have hds : (allOk fun i => allOk fun s => deltaSample (L i) (δ i) T (y s)) =
        .ok fun i s => ((C i)ᵀ)⁻¹ *ᵥ y s + δ i :=
      allOk_ok.2 fun i => allOk_ok.2 fun s => hs i _ _
    unfold computeSamples
    rw [h1]
    simp only [bind, Except.bind, hds, if_true]
    have hin : ∀ i, (allOk fun s => assemble (vars i) 0 (ext0 (((C i)ᵀ)⁻¹ *ᵥ y s + δ i)) fun _ => 0) = .error .runtime := by
      intro i
      refine allOk_error ?_ ⟨⟨0, hm⟩, .runtime, assemble_error _ _ _ _ (hg i)⟩
      intro s e he
      rw [assemble_error _ _ _ _ (hg i)] at he; cases he; rfl
    refine allOk_error ?_ ⟨⟨0, hn⟩, .runtime, hin _⟩
    intro i e he
    rw [hin i] at he; cases he; rfl

example : computeSamples (m := 10) .lu true (fun _ : Fin 1 => (⟨!![1, 0; 0, 2; 1, 1], ![1, 2, 3]⟩ : Lin ℝ 3 2))
    (fun _ => [⟨1, some fun _ => 5⟩, ⟨1, none⟩]) 1 (fun _ _ => 0) = .error .runtime :=
  compute_samples_group_raises .lu true _ _ (by norm_num) (by norm_num) (by norm_num) (fun _ => ⟨⟨1, none⟩, by simp, rfl⟩) _

/-- The random numbers are shared by the batch: batch elements that hold the same problem get the same
samples, for every draw, so that their samples are not independent. -/
theorem compute_samples_shared_noise (k : Kind) (isDefault : Bool) (L : Fin n → Lin ℝ p d) (vars : Fin n → List SVar)
    {T : ℝ} (hT : 0 < T) (hL : ∀ i, ¬ Deficient (L i).A) (y : Fin m → Fin d → ℝ) (i i' : Fin n) (h1 : L i = L i') (h2 : vars i = vars i')
    (out : Fin n → Fin m → Nat → ℝ) (h : computeSamples k isDefault L vars T y = .ok out) : out i = out i' := by
  unfold computeSamples at h
  obtain ⟨δ, e1, e2⟩ := (solve_is_least_squares k isDefault L true (1 / 100000000)).1 hL
  choose C hl hp hC hdet hs using fun i => deltaSample_ok (L := L i) hT (hL i)
  have hds : (allOk fun i => allOk fun s => deltaSample (L i) (δ i) T (y s)) =
      .ok fun i s => ((C i)ᵀ)⁻¹ *ᵥ y s + δ i :=
    allOk_ok.2 fun i => allOk_ok.2 fun s => hs i _ _
  have hδ : δ i = δ i' := by
    by_contra hne
    have a := e2 i (δ i') (Ne.symm hne)
    have b := e2 i' (δ i) hne
    rw [h1] at a
    exact absurd a (not_lt.2 b.le)
  have hCi : ∀ s, ((C i)ᵀ)⁻¹ *ᵥ y s = ((C i')ᵀ)⁻¹ *ᵥ y s := by
    intro s
    have a := hs i 0 (y s)
    have b := hs i' 0 (y s)
    rw [h1, b] at a
    simpa using (Except.ok.inj a).symm
  rw [e1] at h
  simp only [bind, Except.bind, hds] at h
  cases isDefault
  · cases h
  · simp only [if_true] at h
    funext s
    have a := allOk_ok.1 (allOk_ok.1 h i) s
    have b := allOk_ok.1 (allOk_ok.1 h i') s
    rw [h2, hCi s, hδ, b] at a
    exact (Except.ok.inj a).symm

end Verif.Layer
