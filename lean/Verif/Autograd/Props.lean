import Verif.Autograd.Model
import Verif.Linear.Props
import Verif.Geometry.Lemmas
import Mathlib.Tactic

/-!
# Gradients of the sparse solves (C53)
-/

namespace Verif.Autograd
open Verif.Linear Verif.Geometry Matrix

/-! ## Specification -/

/-- The gradient, with respect to the stored values and the right-hand side, of the linear
functional `w` of a function `f` of them: along every curve of values and right-hand sides, the
derivative of `w · f` is the inner product with `gA` and `gb`. -/
def IsGradient (s : Pattern) (f : (ℕ → ℝ) → (ℕ → ℝ) → ℕ → ℝ) (w val b gA gb : ℕ → ℝ) : Prop :=
  ∀ (v r : ℝ → ℕ → ℝ) (v' r' : ℕ → ℝ), v 0 = val → r 0 = b →
    (∀ p, HasDerivAt (fun t => v t p) (v' p) 0) → (∀ i, HasDerivAt (fun t => r t i) (r' i) 0) →
    HasDerivAt (fun t => ∑ j ∈ Finset.range s.nc, w j * f (v t) (r t) j)
      (∑ p ∈ Finset.range s.colInd.length, gA p * v' p + ∑ i ∈ Finset.range s.nr, gb i * r' i) 0

/-- Legal CSR arrays without repeated columns in a row (as built by the linearization,
`Linear.csr_wellFormed`, `Linear.csr_noDup`). -/
structure Pattern.Legal (s : Pattern) : Prop where
  wf : WellFormed s.rowPtr s.colInd s.nr s.nc
  nodup : NoDupCols s.rowPtr s.colInd s.nr

/-! ## Lemmas -/

theorem inv_deriv {m : ℕ} {F : ℝ → Matrix (Fin m) (Fin m) ℝ} {F'} (hF : MatDeriv F F')
    (hdet : IsUnit (F 0).det) :
    MatDeriv (fun t => (F t)⁻¹) (-((F 0)⁻¹ * F' * (F 0)⁻¹)) := by
  have hd : ∀ i j, DifferentiableAt ℝ (fun t => F t i j) 0 := fun i j => (hF i j).differentiableAt
  have hdd := det_differentiable hd
  have hne : (F 0).det ≠ 0 := hdet.ne_zero
  have hdiff : ∀ i j, DifferentiableAt ℝ (fun t => (F t)⁻¹ i j) 0 := by
    intro i j
    have e : (fun t => (F t)⁻¹ i j) = fun t => ((F t).det)⁻¹ * (F t).adjugate i j := by
      funext t
      rw [Matrix.inv_def]
      simp [Ring.inverse_eq_inv']
    rw [e]
    refine DifferentiableAt.fun_mul (hdd.inv hne) ?_
    simp only [Matrix.adjugate_apply]
    refine det_differentiable fun a b => ?_
    simp only [Matrix.updateRow_apply]
    by_cases hb : a = j
    · simp [hb]
    · simpa [hb] using hd a b
  obtain ⟨N', hN'⟩ : ∃ N', MatDeriv (fun t => (F t)⁻¹) N' :=
    ⟨Matrix.of fun i j => deriv (fun t => (F t)⁻¹ i j) 0, fun i j => (hdiff i j).hasDerivAt⟩
  have hp := hN'.mul hF
  have hev : ∀ᶠ t in nhds (0 : ℝ), (F t).det ≠ 0 := hdd.continuousAt.eventually_ne hne
  have hz : N' * F 0 + (F 0)⁻¹ * F' = 0 := by
    ext i j
    have h1 := hp i j
    have h2 : HasDerivAt (fun t => ((F t)⁻¹ * F t) i j) 0 0 := by
      have hc : HasDerivAt (fun _ : ℝ => (1 : Matrix (Fin m) (Fin m) ℝ) i j) 0 0 :=
        hasDerivAt_const _ _
      refine hc.congr_of_eventuallyEq ?_
      filter_upwards [hev] with t ht
      rw [Matrix.nonsing_inv_mul _ (isUnit_iff_ne_zero.mpr ht)]
    exact h1.unique h2
  refine hN'.congr ?_
  have h3 : N' * F 0 * (F 0)⁻¹ = N' := Matrix.mul_nonsing_inv_cancel_right _ _ hdet
  rw [← h3, eq_neg_of_add_eq_zero_left hz, Matrix.neg_mul]

section
variable {s : Pattern}

theorem mat_eq (val : ℕ → ℝ) (i : Fin s.nr) (j : Fin s.nc) :
    s.mat val i j = denote s.rowPtr s.colInd val i j := rfl

theorem mat_deriv {v : ℝ → ℕ → ℝ} {v' : ℕ → ℝ} (h : ∀ p, HasDerivAt (fun t => v t p) (v' p) 0) :
    MatDeriv (fun t => s.mat (v t)) (s.mat v') := by
  intro i j
  refine HasDerivAt.fun_sum fun p _ => ?_
  split
  · exact h p
  · exact hasDerivAt_const _ _

theorem matVec_mat (hw : WellFormed s.rowPtr s.colInd s.nr s.nc) (val v : ℕ → ℝ) (i : Fin s.nr) :
    matVec s.rowPtr s.colInd val v i = (s.mat val *ᵥ fun j => v j) i := by
  rw [matVec_eq _ _ _ _ hw _ _ _ i.2, Finset.sum_range]
  rfl

theorem tmatVec_mat (hw : WellFormed s.rowPtr s.colInd s.nr s.nc) (val v : ℕ → ℝ) (j : Fin s.nc) :
    tmatVec s.rowPtr s.colInd val v j = ((s.mat val)ᵀ *ᵥ fun i => v i) j := by
  rw [tmatVec_eq _ _ _ _ hw, Finset.sum_range]
  rfl

theorem solveWith_fin {n : ℕ} (M : Matrix (Fin n) (Fin n) ℝ) (v : ℕ → ℝ) (j : Fin n) :
    solveWith M v j = (M⁻¹ *ᵥ fun k => v k) j := by
  simp [solveWith]

theorem forward_fin (hw : WellFormed s.rowPtr s.colInd s.nr s.nc) (al be : ℝ) (val b : ℕ → ℝ)
    (j : Fin s.nc) : forward s al be val b j
      = ((s.normal al be val)⁻¹ *ᵥ ((s.mat val)ᵀ *ᵥ fun i => b i)) j := by
  rw [forward, solveWith_fin]
  congr 2
  funext k
  exact tmatVec_mat hw val b k

theorem normal_symm (al be : ℝ) (val : ℕ → ℝ) :
    (s.normal al be val)ᵀ = s.normal al be val := by
  have h : ∀ j k, ((s.mat val)ᵀ * s.mat val) j k = ((s.mat val)ᵀ * s.mat val) k j := by
    intro j k
    simp only [Matrix.mul_apply, Matrix.transpose_apply]
    exact Finset.sum_congr rfl fun _ _ => mul_comm _ _
  ext j k
  show s.normal al be val k j = s.normal al be val j k
  simp only [Pattern.normal]
  rw [h j k]
  by_cases e : j = k
  · simp [e]
  · rw [if_neg e, if_neg (Ne.symm e)]

/-- The derivative of the damped normal matrix. -/
noncomputable def normal' (s : Pattern) (al : ℝ) (val val' : ℕ → ℝ) :
    Matrix (Fin s.nc) (Fin s.nc) ℝ :=
  let D := (s.mat val')ᵀ * s.mat val + (s.mat val)ᵀ * s.mat val'
  fun j k => D j k + if j = k then al * D j k else 0

theorem normal_deriv {v : ℝ → ℕ → ℝ} {v' : ℕ → ℝ} (h : ∀ p, HasDerivAt (fun t => v t p) (v' p) 0)
    (al be : ℝ) : MatDeriv (fun t => s.normal al be (v t)) (normal' s al (v 0) v') := by
  have hA := mat_deriv (s := s) h
  have hAt : MatDeriv (fun t => (s.mat (v t))ᵀ) (s.mat v')ᵀ := fun i j => hA j i
  have hM := hAt.mul hA
  intro j k
  refine (hM j k).fun_add ?_
  by_cases e : j = k
  · simp only [if_pos e]
    exact ((hM j k).const_mul al).add_const be
  · simp only [if_neg e]
    exact hasDerivAt_const _ _

/-- Stored positions, row by row. -/
theorem sum_rows (hw : WellFormed s.rowPtr s.colInd s.nr s.nc) (F : ℕ → ℝ) :
    ∑ p ∈ Finset.range s.colInd.length, F p
      = ∑ i : Fin s.nr, ∑ p ∈ Finset.Ico (at' s.rowPtr i) (at' s.rowPtr (i + 1)), F p := by
  rw [← Finset.sum_range fun i => ∑ p ∈ Finset.Ico (at' s.rowPtr i) (at' s.rowPtr (i + 1)), F p]
  have key : ∀ n, n ≤ s.nr → ∑ p ∈ Finset.range (at' s.rowPtr n), F p
      = ∑ i ∈ Finset.range n, ∑ p ∈ Finset.Ico (at' s.rowPtr i) (at' s.rowPtr (i + 1)), F p := by
    intro n
    induction n with
    | zero => intro _; rw [hw.zero]; simp
    | succ n ih =>
      intro hn
      rw [Finset.sum_range_succ, ← ih (by omega), Finset.range_eq_Ico, Finset.range_eq_Ico,
        Finset.sum_Ico_consecutive _ (Nat.zero_le _) (hw.mono n (by omega))]
  rw [← hw.last]
  exact key _ le_rfl

theorem col_lt (hw : WellFormed s.rowPtr s.colInd s.nr s.nc) {i p : ℕ} (hi : i < s.nr)
    (hp : p < at' s.rowPtr (i + 1)) : at' s.colInd p < s.nc := by
  have hlen : p < s.colInd.length := Nat.lt_of_lt_of_le hp (hw.le (i + 1) hi)
  apply hw.range
  unfold at'
  simp only [List.getD, List.getElem?_eq_getElem hlen, Option.getD_some]
  exact List.getElem_mem hlen

/-- A weighted sum of the entries of the matrix is a sum over stored positions. -/
theorem sum_mat (hw : WellFormed s.rowPtr s.colInd s.nr s.nc) (val : ℕ → ℝ) (F : ℕ → ℕ → ℝ) :
    ∑ i : Fin s.nr, ∑ j : Fin s.nc, s.mat val i j * F i j
      = ∑ i : Fin s.nr, ∑ p ∈ Finset.Ico (at' s.rowPtr i) (at' s.rowPtr (i + 1)),
          F i (at' s.colInd p) * val p := by
  refine Finset.sum_congr rfl fun i _ => ?_
  simp only [Pattern.mat, Finset.sum_mul]
  rw [Finset.sum_comm]
  refine Finset.sum_congr rfl fun p hp => ?_
  have hc := col_lt hw i.2 (Finset.mem_Ico.mp hp).2
  rw [Finset.sum_eq_single ⟨at' s.colInd p, hc⟩]
  · simp [mul_comm]
  · intro j _ hj
    rw [if_neg, zero_mul]
    intro e
    exact hj (Fin.ext e.symm)
  · simp

theorem gradRows_eq (hw : WellFormed s.rowPtr s.colInd s.nr s.nc) (detach : Bool)
    (junk b x bAx H AH : ℕ → ℝ) {i p : ℕ} (hi : i < s.nr) (h1 : at' s.rowPtr i ≤ p)
    (h2 : p < at' s.rowPtr (i + 1)) :
    gradRows s detach junk b x bAx H AH s.nr p
      = if detach then b i * H (at' s.colInd p)
        else bAx i * H (at' s.colInd p) - AH i * x (at' s.colInd p) := by
  have hmono : ∀ a c, a ≤ c → c ≤ s.nr → at' s.rowPtr a ≤ at' s.rowPtr c := by
    intro a c hac
    induction hac with
    | refl => intro _; exact le_rfl
    | step _ ih => intro hc; exact (ih (by omega)).trans (hw.mono _ (by omega))
  have key : ∀ n, n ≤ s.nr → i < n → gradRows s detach junk b x bAx H AH n p
      = if detach then b i * H (at' s.colInd p)
        else bAx i * H (at' s.colInd p) - AH i * x (at' s.colInd p) := by
    intro n
    induction n with
    | zero => intro _ h; omega
    | succ n ih =>
      intro hn hin
      simp only [gradRows]
      by_cases e : i = n
      · subst e; exact if_pos ⟨h1, h2⟩
      · have hlt : i < n := by omega
        have h3 := hmono (i + 1) n hlt (by omega)
        exact (if_neg (by rintro ⟨h4, -⟩; omega)).trans (ih (by omega) hlt)
  exact key _ le_rfl hi

theorem val_eq_mat (hs : s.Legal) (val : ℕ → ℝ) {i p : ℕ} (hi : i < s.nr)
    (h1 : at' s.rowPtr i ≤ p) (h2 : p < at' s.rowPtr (i + 1)) :
    val p = denote s.rowPtr s.colInd val i (at' s.colInd p) := by
  unfold denote
  rw [Finset.sum_eq_single p]
  · simp
  · intro q hq hne
    rw [if_neg]
    intro e
    have := Finset.mem_Ico.mp hq
    exact hne (hs.nodup i hi q p this.1 this.2 h1 h2 e)
  · intro h; exact absurd (Finset.mem_Ico.mpr ⟨h1, h2⟩) h

/-- The algebra of the gradient. -/
theorem core (al : ℝ) (val val' : ℕ → ℝ) (b b' : Fin s.nr → ℝ) (G : Fin s.nc → ℝ)
    (N : Matrix (Fin s.nc) (Fin s.nc) ℝ) (hN : Nᵀ = N) :
    let A := s.mat val
    let A' := s.mat val'
    let x := N *ᵥ (Aᵀ *ᵥ b)
    let H := N *ᵥ G
    G ⬝ᵥ (-(N * normal' s al val val' * N) *ᵥ (Aᵀ *ᵥ b) + N *ᵥ (A'ᵀ *ᵥ b + Aᵀ *ᵥ b'))
      = ∑ i, ∑ j, A' i j * ((b i - (A *ᵥ x) i) * H j - (A *ᵥ H) i * x j
          - A i j * (al * 2 * H j * x j)) + ∑ i, (A *ᵥ H) i * b' i := by
  intro A A' x H
  have hG : ∀ w, G ⬝ᵥ (N *ᵥ w) = H ⬝ᵥ w := by
    intro w
    rw [Matrix.dotProduct_mulVec, ← Matrix.mulVec_transpose, hN]
  have e1 : -(N * normal' s al val val' * N) *ᵥ (Aᵀ *ᵥ b) = N *ᵥ (-(normal' s al val val' *ᵥ x)) := by
    rw [Matrix.mulVec_neg, Matrix.neg_mulVec]
    simp only [x, Matrix.mulVec_mulVec, Matrix.mul_assoc]
  rw [e1, ← Matrix.mulVec_add, hG]
  have hAt : ∀ (C : Matrix (Fin s.nr) (Fin s.nc) ℝ) (y : Fin s.nr → ℝ),
      H ⬝ᵥ (Cᵀ *ᵥ y) = ∑ i, ∑ j, C i j * (y i * H j) := by
    intro C y
    simp only [dotProduct, Matrix.mulVec, Matrix.transpose_apply, Finset.mul_sum]
    rw [Finset.sum_comm]
    exact Finset.sum_congr rfl fun i _ => Finset.sum_congr rfl fun j _ => by ring
  have hM : normal' s al val val' *ᵥ x = A'ᵀ *ᵥ (A *ᵥ x) + Aᵀ *ᵥ (A' *ᵥ x)
      + fun j => al * (2 * ∑ i, A i j * A' i j) * x j := by
    have : normal' s al val val' = A'ᵀ * A + Aᵀ * A'
        + Matrix.diagonal fun j => al * (2 * ∑ i, A i j * A' i j) := by
      ext j k
      by_cases e : j = k
      · subst e
        simp only [normal', if_pos, Matrix.add_apply, Matrix.diagonal_apply_eq, Matrix.mul_apply,
          Matrix.transpose_apply]
        congr 2
        rw [two_mul]
        congr 1
        exact Finset.sum_congr rfl fun i _ => mul_comm _ _
      · simp only [normal', if_neg e, Matrix.add_apply, Matrix.diagonal_apply_ne _ e]
        rfl
    rw [this, Matrix.add_mulVec, Matrix.add_mulVec, Matrix.mulVec_mulVec x, Matrix.mulVec_mulVec x]
    congr 1
    funext j
    rw [Matrix.mulVec_diagonal]
  have hAH : ∀ y : Fin s.nr → ℝ, H ⬝ᵥ (Aᵀ *ᵥ y) = ∑ i, (A *ᵥ H) i * y i := by
    intro y
    rw [Matrix.dotProduct_mulVec, Matrix.vecMul_transpose]
    rfl
  have hd : H ⬝ᵥ (fun j => al * (2 * ∑ i, A i j * A' i j) * x j)
      = ∑ i, ∑ j, A' i j * (A i j * (al * 2 * H j * x j)) := by
    simp only [dotProduct, Finset.mul_sum, Finset.sum_mul]
    rw [Finset.sum_comm]
    exact Finset.sum_congr rfl fun i _ => Finset.sum_congr rfl fun j _ => by ring
  rw [hM, dotProduct_add, dotProduct_add, dotProduct_neg, dotProduct_add, dotProduct_add,
    hAt A' b, hAt A' (A *ᵥ x), hAH, hAH, hd]
  have hx : ∑ i, (A *ᵥ H) i * (A' *ᵥ x) i = ∑ i, ∑ j, A' i j * ((A *ᵥ H) i * x j) := by
    refine Finset.sum_congr rfl fun i _ => ?_
    have e : (A' *ᵥ x) i = ∑ j, A' i j * x j := rfl
    rw [e, Finset.mul_sum]
    exact Finset.sum_congr rfl fun j _ => by ring
  rw [hx]
  have hsplit : ∑ i, ∑ j, A' i j * ((b i - (A *ᵥ x) i) * H j - (A *ᵥ H) i * x j
        - A i j * (al * 2 * H j * x j))
      = ∑ i, ∑ j, A' i j * (b i * H j) - ∑ i, ∑ j, A' i j * ((A *ᵥ x) i * H j)
        - ∑ i, ∑ j, A' i j * ((A *ᵥ H) i * x j)
        - ∑ i, ∑ j, A' i j * (A i j * (al * 2 * H j * x j)) := by
    simp only [← Finset.sum_sub_distrib]
    exact Finset.sum_congr rfl fun i _ => Finset.sum_congr rfl fun j _ => by ring
  rw [hsplit]
  ring

/-- The derivative of the solution. -/
theorem forward_deriv (hw : WellFormed s.rowPtr s.colInd s.nr s.nc) {al be : ℝ}
    {v r : ℝ → ℕ → ℝ} {v' r' : ℕ → ℝ} (hv : ∀ p, HasDerivAt (fun t => v t p) (v' p) 0)
    (hr : ∀ i, HasDerivAt (fun t => r t i) (r' i) 0)
    (hdet : IsUnit (s.normal al be (v 0)).det) (j : Fin s.nc) :
    HasDerivAt (fun t => forward s al be (v t) (r t) j)
      ((-((s.normal al be (v 0))⁻¹ * normal' s al (v 0) v' * (s.normal al be (v 0))⁻¹)
          *ᵥ ((s.mat (v 0))ᵀ *ᵥ fun i => r 0 i)
        + (s.normal al be (v 0))⁻¹ *ᵥ
          ((s.mat v')ᵀ *ᵥ (fun i => r 0 i) + (s.mat (v 0))ᵀ *ᵥ fun i => r' i)) j) 0 := by
  simp only [forward_fin hw]
  have hA := mat_deriv (s := s) hv
  have hinv := inv_deriv (normal_deriv hv al be) hdet
  have hc : ∀ k, HasDerivAt (fun t => ((s.mat (v t))ᵀ *ᵥ fun i => r t i) k)
      (((s.mat v')ᵀ *ᵥ (fun i => r 0 i) + (s.mat (v 0))ᵀ *ᵥ fun i => r' i) k) 0 := by
    intro k
    simp only [Matrix.mulVec, dotProduct, Pi.add_apply, Matrix.transpose_apply,
      ← Finset.sum_add_distrib]
    exact HasDerivAt.fun_sum fun i _ => (hA i k).fun_mul (hr i)
  simp only [Pi.add_apply]
  rw [Matrix.mulVec, Matrix.mulVec, dotProduct, dotProduct, ← Finset.sum_add_distrib]
  have := HasDerivAt.fun_sum (u := Finset.univ) fun (k : Fin s.nc) _ => (hinv j k).fun_mul (hc k)
  exact this

theorem symm_inv {n : ℕ} {M : Matrix (Fin n) (Fin n) ℝ} (h : Mᵀ = M) : (M⁻¹)ᵀ = M⁻¹ := by
  rw [Matrix.transpose_nonsing_inv, h]

theorem sum_range_fin {n : ℕ} (f : ℕ → ℝ) : ∑ j ∈ Finset.range n, f j = ∑ j : Fin n, f j :=
  Finset.sum_range f

end

/-! ## C53 -/

/-- **C53.** The backward pass of the sparse solvers, with exact solves, returns for every batch
element the gradient of the solution of the damped normal equations with respect to the stored
values of `A` and to `b`, with multiplicative and additive damping. -/
theorem sparse_solve_gradient {B : ℕ} (s : Pattern) (hs : s.Legal) (damped : Bool) (junk : ℕ → ℝ)
    (saved : Fin B → Saved) (g : Fin B → ℕ → ℝ)
    (ha : ∀ i, 0 ≤ (saved i).alpha) (hd : damped = false → ∀ i, (saved i).alpha = 0)
    (hdet : ∀ i, (s.normal (saved i).alpha (saved i).beta (saved i).val).det ≠ 0) :
    ∃ out, backward s damped false junk saved g = some out ∧ ∀ i,
      IsGradient s (forward s (saved i).alpha (saved i).beta) (g i) (saved i).val (saved i).b
        (out i).1 (out i).2 := by
  have hw := hs.wf
  -- the gradients, position by position
  have key : ∃ out, backward s damped false junk saved g = some out ∧ ∀ i,
      let c := saved i
      let x := forward s c.alpha c.beta c.val c.b
      let H := solveWith (s.normal c.alpha c.beta c.val) (g i)
      let AH := matVec s.rowPtr s.colInd c.val H
      (out i).2 = AH ∧ ∀ r < s.nr, ∀ p, at' s.rowPtr r ≤ p → p < at' s.rowPtr (r + 1) →
        (out i).1 p = (c.b r - matVec s.rowPtr s.colInd c.val x r) * H (at' s.colInd p)
          - AH r * x (at' s.colInd p)
          - c.val p * (c.alpha * 2 * H (at' s.colInd p) * x (at' s.colInd p)) := by
    unfold backward
    by_cases h : damped = true ∧ ∃ i, (saved i).alpha > 0
    · simp only [if_pos h, Bool.false_eq_true, if_false]
      refine ⟨_, rfl, fun i => ⟨rfl, fun r hr p h1 h2 => ?_⟩⟩
      simp only [gradRows_eq hw _ _ _ _ _ _ _ hr h1 h2, Bool.false_eq_true, if_false]
    · simp only [if_neg h]
      refine ⟨_, rfl, fun i => ⟨rfl, fun r hr p h1 h2 => ?_⟩⟩
      have h0 : (saved i).alpha = 0 := by
        cases hdm : damped with
        | false => exact hd hdm i
        | true =>
          by_contra hne
          exact h ⟨hdm, i, lt_of_le_of_ne (ha i) (Ne.symm hne)⟩
      simp only [gradRows_eq hw _ _ _ _ _ _ _ hr h1 h2, Bool.false_eq_true, if_false]
      rw [h0]; ring
  obtain ⟨out, hout, hspec⟩ := key
  refine ⟨out, hout, fun i v r v' r' hv0 hr0 hv hr => ?_⟩
  obtain ⟨h2, h1⟩ := hspec i
  set c := saved i with hc
  have hu : IsUnit (s.normal c.alpha c.beta (v 0)).det := by
    rw [hv0]; exact isUnit_iff_ne_zero.mpr (hdet i)
  have hder : HasDerivAt (fun t => ∑ j : Fin s.nc, g i j * forward s c.alpha c.beta (v t) (r t) j)
      _ 0 := HasDerivAt.fun_sum fun j _ => (forward_deriv hw hv hr hu j).const_mul (g i j)
  simp only [sum_range_fin]
  refine hder.congr_deriv ?_
  rw [hv0, hr0]
  have hcore := core (s := s) c.alpha c.val v' (fun i => c.b i) (fun i => r' i) (fun j => g i j)
    (s.normal c.alpha c.beta c.val)⁻¹ (symm_inv (normal_symm _ _ _))
  simp only at hcore
  refine Eq.trans hcore ?_
  have hx : ∀ j : Fin s.nc, ((s.normal c.alpha c.beta c.val)⁻¹ *ᵥ ((s.mat c.val)ᵀ *ᵥ fun i => c.b i)) j
      = forward s c.alpha c.beta c.val c.b j := fun j => (forward_fin hw _ _ _ _ j).symm
  have hH : ∀ j : Fin s.nc, ((s.normal c.alpha c.beta c.val)⁻¹ *ᵥ fun k => g i k) j
      = solveWith (s.normal c.alpha c.beta c.val) (g i) j := fun j => (solveWith_fin _ _ j).symm
  have hx' := funext hx
  have hH' := funext hH
  rw [hx', hH']
  congr 1
  · -- the gradient of the values
    have hF := sum_mat hw v' (fun a j => (c.b a - matVec s.rowPtr s.colInd c.val
        (forward s c.alpha c.beta c.val c.b) a) * solveWith (s.normal c.alpha c.beta c.val) (g i) j
      - matVec s.rowPtr s.colInd c.val (solveWith (s.normal c.alpha c.beta c.val) (g i)) a
        * forward s c.alpha c.beta c.val c.b j
      - denote s.rowPtr s.colInd c.val a j * (c.alpha * 2
        * solveWith (s.normal c.alpha c.beta c.val) (g i) j * forward s c.alpha c.beta c.val c.b j))
    rw [← sum_range_fin (n := s.colInd.length) (fun p => (out i).1 p * v' p), sum_rows hw]
    refine Eq.trans (Finset.sum_congr rfl fun a _ => Finset.sum_congr rfl fun j _ => ?_)
      (hF.trans (Finset.sum_congr rfl fun a _ => Finset.sum_congr rfl fun p hp => ?_))
    · simp only [matVec_mat hw]
      rfl
    · have hp' := Finset.mem_Ico.mp hp
      rw [h1 a a.2 p hp'.1 hp'.2, ← val_eq_mat hs c.val a.2 hp'.1 hp'.2]
  · refine Finset.sum_congr rfl fun a _ => ?_
    rw [h2, matVec_mat hw]

/-- **C53.** With a detached Hessian (no positive multiplicative damping, for which the code asserts),
the backward pass is the gradient of the solution with the normal matrix held constant. -/
theorem sparse_solve_gradient_detached {B : ℕ} (s : Pattern) (hs : s.Legal) (damped : Bool)
    (junk : ℕ → ℝ) (saved : Fin B → Saved) (g : Fin B → ℕ → ℝ)
    (ha : ∀ i, (saved i).alpha = 0) :
    ∃ out, backward s damped true junk saved g = some out ∧ ∀ i,
      IsGradient s (fun val b => solveWith (s.normal (saved i).alpha (saved i).beta (saved i).val)
          (tmatVec s.rowPtr s.colInd val b)) (g i) (saved i).val (saved i).b
        (out i).1 (out i).2 := by
  have hw := hs.wf
  unfold backward
  have h : ¬ (damped = true ∧ ∃ i, (saved i).alpha > 0) := by
    rintro ⟨-, i, hi⟩; rw [ha i] at hi; exact lt_irrefl _ hi
  simp only [if_neg h]
  refine ⟨_, rfl, fun i v r v' r' hv0 hr0 hv hr => ?_⟩
  set c := saved i with hc
  set N := (s.normal c.alpha c.beta c.val)⁻¹ with hN
  have hNs : Nᵀ = N := symm_inv (normal_symm _ _ _)
  set H := solveWith (s.normal c.alpha c.beta c.val) (g i) with hH
  have hA := mat_deriv (s := s) hv
  have hfun : ∀ t, ∑ j ∈ Finset.range s.nc, g i j * solveWith (s.normal c.alpha c.beta c.val)
        (tmatVec s.rowPtr s.colInd (v t) (r t)) j
      = ∑ a : Fin s.nr, (s.mat (v t) *ᵥ fun j => H j) a * r t a := by
    intro t
    rw [sum_range_fin]
    have e1 : ∑ j : Fin s.nc, g i j * solveWith (s.normal c.alpha c.beta c.val)
          (tmatVec s.rowPtr s.colInd (v t) (r t)) j
        = (fun j : Fin s.nc => g i j) ⬝ᵥ (N *ᵥ ((s.mat (v t))ᵀ *ᵥ fun a => r t a)) := by
      refine Finset.sum_congr rfl fun j _ => ?_
      rw [solveWith_fin]
      congr 3
      funext k
      exact tmatVec_mat hw _ _ k
    have e2 : (N *ᵥ fun j : Fin s.nc => g i j) = fun j : Fin s.nc => H j :=
      funext fun j => (solveWith_fin _ _ j).symm
    rw [e1, Matrix.dotProduct_mulVec, ← Matrix.mulVec_transpose, hNs, e2, Matrix.dotProduct_mulVec,
      Matrix.vecMul_transpose]
    rfl
  simp only [hfun]
  have hd : ∀ a : Fin s.nr, HasDerivAt (fun t => (s.mat (v t) *ᵥ fun j => H j) a)
      ((s.mat v' *ᵥ fun j => H j) a) 0 := by
    intro a
    have := HasDerivAt.fun_sum (u := Finset.univ) fun (j : Fin s.nc) _ => (hA a j).mul_const (H j)
    exact this
  have hder := HasDerivAt.fun_sum (u := Finset.univ) fun (a : Fin s.nr) _ => (hd a).fun_mul (hr a)
  refine hder.congr_deriv ?_
  rw [Finset.sum_add_distrib, hr0, hv0]
  congr 1
  · rw [sum_rows hw]
    have hF := sum_mat hw v' (fun a j => c.b a * H j)
    refine Eq.trans (Finset.sum_congr rfl fun a _ => ?_)
      (hF.trans (Finset.sum_congr rfl fun a _ => Finset.sum_congr rfl fun p hp => ?_))
    · have e : (s.mat v' *ᵥ fun j => H j) a = ∑ j, s.mat v' a j * H j := rfl
      rw [e, Finset.sum_mul]
      exact Finset.sum_congr rfl fun j _ => by ring
    · have hp' := Finset.mem_Ico.mp hp
      rw [gradRows_eq hw _ _ _ _ _ _ _ a.2 hp'.1 hp'.2, if_pos rfl]
  · rw [sum_range_fin]
    refine Finset.sum_congr rfl fun a _ => ?_
    rw [matVec_mat hw]

/-- **C53.** With a detached Hessian and a positive multiplicative damping the backward pass raises
instead of returning a gradient. -/
theorem sparse_solve_detached_damped {B : ℕ} (s : Pattern) (junk : ℕ → ℝ) (saved : Fin B → Saved)
    (g : Fin B → ℕ → ℝ) {i : Fin B} (hi : 0 < (saved i).alpha) :
    backward s true true junk saved g = none := by
  unfold backward
  simp only [true_and]
  rw [if_pos ⟨i, hi⟩, if_pos trivial]

/-- A legal pattern with an empty position: rows `(a, 0)` and `(b, c)`. -/
def demoPattern : Pattern := ⟨2, 2, [0, 1, 3], [0, 0, 1]⟩

example : demoPattern.Legal where
  wf := by
    refine ⟨rfl, rfl, ?_, rfl, ?_⟩
    · intro i hi
      have : i < 2 := hi
      interval_cases i <;> decide
    · intro c hc
      have : c = 0 ∨ c = 0 ∨ c = 1 := by simpa [demoPattern] using hc
      rcases this with rfl | rfl | rfl <;> decide
  nodup := by
    intro i hi p q h1 h2 h3 h4 h5
    have : i < 2 := hi
    interval_cases i
    · simp [demoPattern, at'] at h1 h2 h3 h4; omega
    · simp [demoPattern, at'] at h1 h2 h3 h4
      interval_cases p <;> interval_cases q <;> simp [demoPattern, at'] at h5 ⊢

/-- Its damped normal matrix with values 1, 2, 3, `alpha = 1` and `beta = 0` is invertible. -/
example : (demoPattern.normal 1 0 (fun p => p + 1)).det ≠ 0 := by
  have e : demoPattern.mat (fun p => (p : ℝ) + 1) = !![1, 0; 2, 3] := by
    ext i j
    fin_cases i <;> fin_cases j <;>
      simp [Pattern.mat, demoPattern, at', Finset.sum_Ico_eq_sum_range, Finset.sum_range_succ] <;>
      norm_num
  have hN : demoPattern.normal 1 0 (fun p => (p : ℝ) + 1)
      = (!![10, 6; 6, 18] : Matrix (Fin 2) (Fin 2) ℝ) := by
    have hm : (demoPattern.mat fun p => (p : ℝ) + 1)ᵀ * demoPattern.mat (fun p => (p : ℝ) + 1)
        = (!![5, 6; 6, 9] : Matrix (Fin 2) (Fin 2) ℝ) := by
      rw [e]
      have h2 : (!![1, 0; 2, 3] : Matrix (Fin 2) (Fin 2) ℝ)ᵀ * !![1, 0; 2, 3] = !![5, 6; 6, 9] := by
        ext i j
        fin_cases i <;> fin_cases j <;> norm_num [Matrix.mul_apply, Fin.sum_univ_two]
      exact h2
    funext i j
    have hd : ∀ i j : Fin 2, (!![5, 6; 6, 9] : Matrix (Fin 2) (Fin 2) ℝ) i j
        + (if i = j then 1 * (!![5, 6; 6, 9] : Matrix (Fin 2) (Fin 2) ℝ) i j + 0 else 0)
        = (!![10, 6; 6, 18] : Matrix (Fin 2) (Fin 2) ℝ) i j := by
      intro i j
      fin_cases i <;> fin_cases j <;> norm_num
    simp only [Pattern.normal, hm]
    exact hd i j
  rw [hN]
  have h : Matrix.det (!![10, 6; 6, 18] : Matrix (Fin 2) (Fin 2) ℝ) ≠ 0 := by
    rw [Matrix.det_fin_two]; norm_num
  exact h

end Verif.Autograd
