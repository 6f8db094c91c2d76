import Verif.Layer.LinOptLemmas
/-!
# Properties of the dense solvers (C78) and of `LinearOptimizer` (C79)
-/
namespace Verif.Layer
open Matrix Verif.Steps Verif.Embodied
open scoped Classical
variable {p d n : Nat}

/-! ### Specification -/

/-- The squared residual of a step `w` in the linearized problem. -/
noncomputable def resid (L : Lin ℝ p d) (w : Fin d → ℝ) : ℝ := ∑ r, ((L.A *ᵥ w) r - L.b r) ^ 2

/-- `x` is the only minimizer of `f`. -/
def StrictMin {α : Type} (f : α → ℝ) (x : α) : Prop := ∀ y, y ≠ x → f x < f y

/-- Some direction does not change the linearized errors: the linearized problem has no unique minimum. -/
def Deficient (A : Matrix (Fin p) (Fin d) ℝ) : Prop := ∃ w, w ≠ 0 ∧ A *ᵥ w = 0

theorem resid_eq (L : Lin ℝ p d) (w : Fin d → ℝ) : resid L w = Steps.sq (L.A *ᵥ w - L.b) := by
  unfold resid Steps.sq dotProduct
  exact Finset.sum_congr rfl fun r _ => by rw [Pi.sub_apply]; ring

theorem deficient_iff (L : Lin ℝ p d) : Deficient L.A ↔ L.AtA.det = 0 := by
  constructor
  · rintro ⟨w, hw, h⟩
    by_contra hne
    exact hw (gram_injective L hne h)
  · intro h
    obtain ⟨w, hw, h⟩ := Matrix.exists_mulVec_eq_zero_iff.2 h
    refine ⟨w, hw, ?_⟩
    have := dot_AtA L w w
    rw [h, dotProduct_zero] at this
    exact sq_eq_zero' this.symm

theorem strictMin_of_normal (L : Lin ℝ p d) (hd : ¬ Deficient L.A) {v : Fin d → ℝ} (h : L.AtA *ᵥ v = L.Atb) :
    StrictMin (resid L) v := by
  intro w hw
  rw [resid_eq, resid_eq, residual_split L h w]
  have : 0 < Steps.sq (L.A *ᵥ (w - v)) := by
    refine sq_pos' fun h0 => hd ⟨w - v, sub_ne_zero.2 hw, h0⟩
  linarith

theorem sysOf_psd (L : Fin n → Lin ℝ p d) (i : Fin n) : ((sysOf L).AtA i).PosSemidef := gram_posSemidef (L i)

/-! ### C78: dense solvers -/

/-- Without `check_singular` and damping: if no element of the batch is rank deficient, both solvers return
for every element the only minimizer of the squared linearized error; otherwise they raise. -/
theorem solve_is_least_squares (k : Kind) (isDefault : Bool) (L : Fin n → Lin ℝ p d) (ell : Bool) (eps : ℝ) :
    ((∀ i, ¬ Deficient (L i).A) →
      ∃ δ, denseSolve k false isDefault (sysOf L) none ell eps = .ok δ ∧ ∀ i, StrictMin (resid (L i)) (δ i)) ∧
    ((∃ i, Deficient (L i).A) → denseSolve k false isDefault (sysOf L) none ell eps = .error .runtime) := by
  simp only [denseSolve, dampAndSolve, solveSystem_eq k (sysOf L) (sysOf_psd L), Bool.false_eq_true, if_false]
  constructor
  · intro h
    have hdet : ∀ i, ((sysOf L).AtA i).det ≠ 0 := fun i hi => h i ((deficient_iff _).2 hi)
    rw [if_pos hdet]
    refine ⟨_, rfl, fun i => ?_⟩
    exact strictMin_of_normal (L i) (h i) ((solve_unique (hdet i) _ _).1 rfl)
  · rintro ⟨i, hi⟩
    rw [if_neg]
    intro hall
    exact hall i ((deficient_iff (L i)).1 hi)

example : ∃ δ, denseSolve .cholesky false true (sysOf (fun _ : Fin 2 => (⟨!![1, 0; 0, 2; 1, 1], ![1, 2, 3]⟩ : Lin ℝ 3 2)))
    none true 0 = .ok δ ∧ ∀ i, StrictMin (resid ⟨!![1, 0; 0, 2; 1, 1], ![1, 2, 3]⟩) (δ i) := by
  refine (solve_is_least_squares .cholesky true _ true 0).1 fun i => ?_
  rintro ⟨w, hw, h⟩
  refine hw ?_
  have h0 := congrFun h 0
  have h1 := congrFun h 1
  simp [Matrix.mulVec, dotProduct, Fin.sum_univ_succ] at h0 h1
  funext j; fin_cases j
  · exact h0
  · exact h1

theorem subsys_psd (L : Fin n → Lin ℝ p d) (g : List (Fin n)) (j : Fin g.length) :
    ((sysOf L).AtA (g.get j)).PosSemidef := gram_posSemidef _

/-- With `check_singular` (default data type, no damping): never raises; every rank deficient element gets
a zero step, every other element the only minimizer, whatever the other elements are. -/
theorem check_singular_spec (k : Kind) (L : Fin n → Lin ℝ p d) (ell : Bool) (eps : ℝ) :
    ∃ δ, denseSolve k true true (sysOf L) none ell eps = .ok δ ∧
      ∀ i, (Deficient (L i).A → δ i = 0) ∧ (¬ Deficient (L i).A → StrictMin (resid (L i)) (δ i)) := by
  have hps := subsys_psd L (goodIdx (sysOf L))
  simp only [denseSolve, dampAndSolve, if_true]
  rw [solveSystem_eq k _ hps, if_pos (goodIdx_get (sysOf L))]
  simp only
  refine ⟨_, rfl, fun i => ⟨fun h => ?_, fun h => ?_⟩⟩
  · have : i ∉ goodIdx (sysOf L) := fun hm => mem_goodIdx.1 hm ((deficient_iff (L i)).1 h)
    rw [dif_neg this]
  · have hm : i ∈ goodIdx (sysOf L) := mem_goodIdx.2 fun hi => h ((deficient_iff (L i)).2 hi)
    rw [dif_pos hm, goodIdx_idx hm]
    exact strictMin_of_normal (L i) h ((solve_unique (mem_goodIdx.1 hm) _ _).1 rfl)

/-- With a damping number `lam ≥ 0` and `check_singular`: rank deficient elements still get a zero step,
the others the solution of their damped system. -/
theorem check_singular_damped (k : Kind) (L : Fin n → Lin ℝ p d) (lam : ℝ) (hl : 0 ≤ lam) (ell : Bool) (eps : ℝ)
    (he : 0 ≤ eps) :
    ∃ δ, denseSolve k true true (sysOf L) (some (.scalar lam)) ell eps = .ok δ ∧
      ∀ i, (Deficient (L i).A → δ i = 0) ∧
        (¬ Deficient (L i).A → applyDamping (L i).AtA lam ell eps *ᵥ δ i = (L i).Atb) := by
  have hpd : ∀ j : Fin (goodIdx (sysOf L)).length,
      (applyDamping ((sysOf L).AtA ((goodIdx (sysOf L)).get j)) lam ell eps).PosDef :=
    fun j => damped_posDef (L _) hl he (Or.inl (goodIdx_get (sysOf L) j))
  simp only [denseSolve, dampAndSolve, denseDamping, if_true]
  rw [solveSystem_eq k _ fun j => (hpd j).posSemidef, if_pos fun j => (hpd j).det_pos.ne']
  simp only
  refine ⟨_, rfl, fun i => ⟨fun h => ?_, fun h => ?_⟩⟩
  · have : i ∉ goodIdx (sysOf L) := fun hm => mem_goodIdx.1 hm ((deficient_iff (L i)).1 h)
    rw [dif_neg this]
  · have hm : i ∈ goodIdx (sysOf L) := mem_goodIdx.2 fun hi => h ((deficient_iff (L i)).2 hi)
    rw [dif_pos hm, goodIdx_idx hm]
    refine (solve_unique ?_ _ _).1 rfl
    exact (damped_posDef (L i) hl he (Or.inl (mem_goodIdx.1 hm))).det_pos.ne'

/-- Without `check_singular`, positive damping makes every system solvable: the damped system of every
element is solved, rank deficient or not. -/
theorem damped_solve (k : Kind) (isDefault : Bool) (L : Fin n → Lin ℝ p d) (lam : ℝ) (hl : 0 ≤ lam) (ell : Bool)
    (eps : ℝ) (he : 0 ≤ eps) (hpos : if ell then 0 < eps else 0 < lam) :
    ∃ δ, denseSolve k false isDefault (sysOf L) (some (.scalar lam)) ell eps = .ok δ ∧
      ∀ i, applyDamping (L i).AtA lam ell eps *ᵥ δ i = (L i).Atb := by
  have hpd : ∀ i, (applyDamping ((sysOf L).AtA i) lam ell eps).PosDef :=
    fun i => damped_posDef (L i) hl he (Or.inr hpos)
  simp only [denseSolve, dampAndSolve, denseDamping, Bool.false_eq_true, if_false]
  rw [solveSystem_eq k _ fun j => (hpd j).posSemidef, if_pos fun j => (hpd j).det_pos.ne']
  exact ⟨_, rfl, fun i => (solve_unique (hpd i).det_pos.ne' _ _).1 rfl⟩

/-- So with `check_singular` a rank deficient element that is not at a stationary point is never moved by
a damped step, although its damped system has a (nonzero) solution, which is what the same solver without
the option returns. -/
theorem check_singular_blocks_damped_step (k : Kind) (L : Fin n → Lin ℝ p d) (lam : ℝ) (hl : 0 < lam) (eps : ℝ)
    (he : 0 ≤ eps) (i : Fin n) (hd : Deficient (L i).A) (hb : (L i).Atb ≠ 0) :
    ∃ δ δ', denseSolve k true true (sysOf L) (some (.scalar lam)) false eps = .ok δ ∧
      denseSolve k false true (sysOf L) (some (.scalar lam)) false eps = .ok δ' ∧
      δ i = 0 ∧ δ' i ≠ 0 ∧ applyDamping (L i).AtA lam false eps *ᵥ δ' i = (L i).Atb := by
  obtain ⟨δ, h1, h2⟩ := check_singular_damped k L lam hl.le false eps he
  obtain ⟨δ', h3, h4⟩ := damped_solve k true L lam hl.le false eps he (by simpa using hl)
  refine ⟨δ, δ', h1, h3, (h2 i).1 hd, ?_, h4 i⟩
  intro h0
  have := h4 i
  rw [h0, mulVec_zero] at this
  exact hb this.symm

example : Deficient (!![1, 0] : Matrix (Fin 1) (Fin 2) ℝ) ∧
    (⟨!![1, 0], ![1]⟩ : Lin ℝ 1 2).Atb ≠ 0 := by
  refine ⟨⟨![0, 1], fun h => ?_, ?_⟩, fun h => ?_⟩
  · have := congrFun h 1; simp at this
  · funext r; fin_cases r; simp [Matrix.mulVec, dotProduct, Fin.sum_univ_succ]
  · have := congrFun h 0
    simp [Lin.Atb, Matrix.mulVec, dotProduct] at this

theorem solveSystem_error {k : Kind} {s : Sys n d} {e : Exc} (h : solveSystem k s = .error e) : e = .runtime := by
  cases k <;> simp only [solveSystem] at h <;> split_ifs at h <;> cases h <;> rfl

theorem dampAndSolve_error {k : Kind} {s : Sys n d} {a : Option (DampArg ℝ)} {ell : Bool} {eps : ℝ} {e : Exc}
    (h : dampAndSolve k s a ell eps = .error e) : e = .runtime := by
  cases a with
  | none => exact solveSystem_error h
  | some a =>
    simp only [dampAndSolve] at h
    split at h
    · cases h; rfl
    · exact solveSystem_error h

/-- With `check_singular` and a data type other than torch's default (say `float64`), `solve` always
raises, for every batch. -/
theorem check_singular_dtype_raises (k : Kind) (s : Sys n d) (a : Option (DampArg ℝ)) (ell : Bool) (eps : ℝ) :
    denseSolve k true false s a ell eps = .error .runtime := by
  simp only [denseSolve, if_true, Bool.false_eq_true, if_false]
  split
  · next e h => rw [dampAndSolve_error h]
  · rfl

/-- With `check_singular` and one damping value per element (what adaptive Levenberg–Marquardt passes),
`solve` raises as soon as one of several elements is rank deficient. -/
theorem check_singular_batch_damping_raises (k : Kind) (isDefault : Bool) (L : Fin n → Lin ℝ p d) (l : List ℝ)
    (hl : l.length = n) (hn : 1 < n) (i : Fin n) (hd : Deficient (L i).A) (ell : Bool) (eps : ℝ) :
    denseSolve k true isDefault (sysOf L) (some (.vec l)) ell eps = .error .runtime := by
  have hlt : (goodIdx (sysOf L)).length < n := goodIdx_length_lt ((deficient_iff (L i)).1 hd)
  simp only [denseSolve, dampAndSolve, if_true, denseDamping]
  rw [if_neg (by omega), dif_neg (by omega)]

/-! ### C79: `LinearOptimizer` -/

/-- `optimize()` has three outcomes. It raises; or (autograd off, a RuntimeError in the linear solver) all
statuses are `FAIL`, the variables are unchanged and there is no best solution; or all statuses are
`CONVERGED`, every variable has been retracted by the solver's step and the best solution is the final
value. -/
theorem linear_optimize_outcome {X : Type} (grad : Bool) (linearize : (Fin n → X) → Except Exc (Fin n → Lin ℝ p d))
    (solve : (Fin n → Lin ℝ p d) → Except Exc (Fin n → Fin d → ℝ)) (retract : X → (Fin d → ℝ) → X)
    (x : Fin n → X) :
    match linearOptimize grad linearize solve retract x with
    | .raised e => (linearize x = .error e ∨ ∃ L, linearize x = .ok L ∧ solve L = .error e) ∧
        (e = .runtime → grad = true)
    | .done y st best =>
      (grad = false ∧ (linearize x = .error .runtime ∨ ∃ L, linearize x = .ok L ∧ solve L = .error .runtime) ∧
        y = x ∧ (∀ i, st i = .fail) ∧ best = none) ∨
      (∃ L δ, linearize x = .ok L ∧ solve L = .ok δ ∧ (∀ i, y i = retract (x i) (δ i)) ∧
        (∀ i, st i = .converged) ∧ best = some y) := by
  unfold linearOptimize
  rcases hl : linearize x with e | L
  · cases e
    · cases grad
      · exact Or.inl ⟨rfl, Or.inl rfl, rfl, fun _ => rfl, rfl⟩
      · exact ⟨Or.inl rfl, fun _ => rfl⟩
    · exact ⟨Or.inl rfl, fun h => by cases h⟩
  · rcases hs : solve L with e | δ
    · have hb : ((.ok L : Except Exc _) >>= solve) = .error e := hs
      rw [hb]
      cases e
      · cases grad
        · exact Or.inl ⟨rfl, Or.inr ⟨L, rfl, hs⟩, rfl, fun _ => rfl, rfl⟩
        · exact ⟨Or.inr ⟨L, rfl, hs⟩, fun _ => rfl⟩
      · exact ⟨Or.inr ⟨L, rfl, hs⟩, fun h => by cases h⟩
    · have hb : ((.ok L : Except Exc _) >>= solve) = .ok δ := hs
      rw [hb]
      exact Or.inr ⟨L, δ, rfl, hs, fun _ => rfl, fun _ => rfl, rfl⟩

theorem affine_metric_step (P : Affine n p d) (x : Fin n → Fin d → ℝ) (i : Fin n) (w : Fin d → ℝ) :
    P.metric i (x i + w) = resid (P.linearize x i) w / 2 := by
  unfold Affine.metric resid Affine.linearize Affine.error
  congr 1
  refine Finset.sum_congr rfl fun r _ => ?_
  simp only [mulVec_add, Pi.add_apply, Pi.sub_apply, Pi.neg_apply]
  ring

theorem affine_strictMin (P : Affine n p d) (x : Fin n → Fin d → ℝ) (i : Fin n) {v : Fin d → ℝ}
    (h : StrictMin (resid (P.linearize x i)) v) : StrictMin (P.metric i) (x i + v) := by
  intro z hz
  have e : z = x i + (z - x i) := by abel
  rw [e, affine_metric_step, affine_metric_step]
  have := h (z - x i) (fun hc => hz (by rw [← hc]; abel))
  linarith

/-- On an affine problem with a unique minimum for every element, `LinearOptimizer` converges in one call
to that minimum, from any initial values, with either solver. -/
theorem linear_optimize_minimizes (P : Affine n p d) (hP : ∀ i, ¬ Deficient (P.A i)) (k : Kind)
    (isDefault grad : Bool) (x : Fin n → Fin d → ℝ) :
    ∃ y, linearOptimizeAffine P k false isDefault grad x = .done y (fun _ => .converged) (some y) ∧
      ∀ i, StrictMin (P.metric i) (y i) := by
  obtain ⟨δ, h1, h2⟩ := (solve_is_least_squares k isDefault (P.linearize x) true (1 / 100000000)).1 hP
  refine ⟨fun i => x i + δ i, ?_, fun i => affine_strictMin P x i (h2 i)⟩
  unfold linearOptimizeAffine linearOptimize
  have hb : ((.ok (P.linearize x) : Except Exc _) >>= fun L =>
      denseSolve k false isDefault (sysOf L) none true (1 / 100000000)) = .ok δ := h1
  rw [hb]

theorem strictMin_unique {α : Type} {f : α → ℝ} {x y : α} (hx : StrictMin f x) (hy : StrictMin f y) : x = y := by
  by_contra h
  exact lt_asymm (hx y (Ne.symm h)) (hy x h)

/-- The result does not depend on the initial values. -/
theorem linear_optimize_init_irrelevant (P : Affine n p d) (hP : ∀ i, ¬ Deficient (P.A i)) (k k' : Kind)
    (g g' : Bool) (x x' : Fin n → Fin d → ℝ) :
    linearOptimizeAffine P k false true g x = linearOptimizeAffine P k' false true g' x' := by
  obtain ⟨y, h, m⟩ := linear_optimize_minimizes P hP k true g x
  obtain ⟨y', h', m'⟩ := linear_optimize_minimizes P hP k' true g' x'
  have : y = y' := funext fun i => strictMin_unique (m i) (m' i)
  rw [h, h', this]

/-- One element without a unique minimum makes the whole batch fail (without `check_singular`): an
exception with autograd on, otherwise status `FAIL` everywhere and no variable changed. -/
theorem linear_optimize_singular (P : Affine n p d) (j : Fin n) (hP : Deficient (P.A j)) (k : Kind)
    (isDefault grad : Bool) (x : Fin n → Fin d → ℝ) :
    linearOptimizeAffine P k false isDefault grad x =
      if grad then .raised .runtime else .done x (fun _ => .fail) none := by
  have h1 := (solve_is_least_squares k isDefault (P.linearize x) true (1 / 100000000)).2 ⟨j, hP⟩
  unfold linearOptimizeAffine linearOptimize
  have hb : ((.ok (P.linearize x) : Except Exc _) >>= fun L =>
      denseSolve k false isDefault (sysOf L) none true (1 / 100000000)) = .error .runtime := h1
  rw [hb]

/-- With `check_singular` (default data type): elements with a unique minimum reach it, the others keep
their values, and all of them are reported as `CONVERGED`. -/
theorem linear_optimize_check_singular (P : Affine n p d) (k : Kind) (grad : Bool) (x : Fin n → Fin d → ℝ) :
    ∃ y, linearOptimizeAffine P k true true grad x = .done y (fun _ => .converged) (some y) ∧
      ∀ i, (¬ Deficient (P.A i) → StrictMin (P.metric i) (y i)) ∧ (Deficient (P.A i) → y i = x i) := by
  obtain ⟨δ, h1, h2⟩ := check_singular_spec k (P.linearize x) true (1 / 100000000)
  refine ⟨fun i => x i + δ i, ?_, fun i => ⟨fun h => affine_strictMin P x i ((h2 i).2 h), fun h => ?_⟩⟩
  · unfold linearOptimizeAffine linearOptimize
    have hb : ((.ok (P.linearize x) : Except Exc _) >>= fun L =>
        denseSolve k true true (sysOf L) none true (1 / 100000000)) = .ok δ := h1
    rw [hb]
  · simp only
    rw [(h2 i).1 h, add_zero]

/-- Hence status `CONVERGED` does not mean that the result is a minimizer: the problem `(x₁ - 1)²` in the
variable `(x₁, x₂)`, started at 0, "converges" at 0. -/
theorem converged_not_minimal : ∃ (P : Affine 1 1 2) (y : Fin 1 → Fin 2 → ℝ),
    linearOptimizeAffine P .cholesky true true true 0 = .done y (fun _ => .converged) (some y) ∧
    ∃ z, P.metric 0 z < P.metric 0 (y 0) := by
  obtain ⟨y, h1, h2⟩ := linear_optimize_check_singular ⟨fun _ => !![1, 0], fun _ => ![1]⟩ .cholesky true
    (0 : Fin 1 → Fin 2 → ℝ)
  refine ⟨_, y, h1, ![1, 0], ?_⟩
  have : y 0 = 0 := (h2 0).2 ⟨![0, 1], fun h => by have := congrFun h 1; simp at this, by
    funext r; fin_cases r; simp [Matrix.mulVec, dotProduct, Fin.sum_univ_succ]⟩
  rw [this]
  simp [Affine.metric, Affine.error, Matrix.mulVec, dotProduct, Fin.sum_univ_succ]

example : ∀ i : Fin 2, ¬ Deficient ((⟨fun _ => !![1, 0; 0, 2; 1, 1], fun _ => ![1, 2, 3]⟩ : Affine 2 3 2).A i) := by
  rintro i ⟨w, hw, h⟩
  refine hw ?_
  have h0 := congrFun h 0
  have h1 := congrFun h 1
  simp [Matrix.mulVec, dotProduct, Fin.sum_univ_succ] at h0 h1
  funext j; fin_cases j
  · exact h0
  · exact h1

end Verif.Layer
