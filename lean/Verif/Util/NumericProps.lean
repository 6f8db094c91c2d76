import Verif.Util.Numeric
import Verif.Geometry.PlanarJac
import Verif.Geometry.SpatialJac
import Mathlib.Analysis.Calculus.Deriv.MeanValue
import Mathlib.Analysis.Calculus.Deriv.Slope

/-!
# Finite differences: properties (C95)
-/

namespace Verif.Numeric
open Verif.Geometry Matrix Filter Topology

/-! ### Specification -/

/-- `J` is the Jacobian at `g` of a function from one group to another: it maps the tangent vector of every curve
through `g` to that of its image. -/
def JacInto {n m k l : ℕ} {G H : Type} (E : Embedding n m G) (E' : Embedding k l H) (f : G → H) (g : G)
    (J : Matrix (Fin k) (Fin n) ℝ) : Prop :=
  ∀ (x : ℝ → G) (ξ : Fin n → ℝ), x 0 = g → E.Tangent x ξ → E'.Tangent (fun t => f (x t)) (J *ᵥ ξ)

/-- The logarithm of the identity is zero, and its derivative there is the identity. -/
def LogAtOne {n m : ℕ} {G : Type} (E : Embedding n m G) (L : Ops n G) : Prop :=
  L.log (L.exp 0) = 0 ∧ E.HasJac L.log (L.exp 0) 1

/-- The element of argument `i` that belongs to element `r` of the batch: arguments of batch size 1 are
broadcast. -/
def elem {a : ℕ} {b : Fin a → ℕ} {G : Fin a → Type} {B : ℕ} (hb : ∀ i, Fits (b i) B) (x : ∀ i, Fin (b i) → G i)
    (r : Fin B) : ∀ i, G i := fun i => bcast (hb i) (x i) r

/-! ### The group classes -/

theorem exp_zero_eq {n m : ℕ} {G : Type} {E : Embedding n m G} {L : Ops n G} (h : E.Lawful L) {g : G}
    (hg : E.toMatrix g = 1) : L.exp 0 = g := h.toMatrix_inj _ _ (by rw [h.exp_zero, hg])

/-- All group classes of theseus are covered. -/
theorem groups_lawful {eps deps epi : ℝ} (he : 0 < eps) (hed : eps < deps) (hpi : epi < 2) (n : ℕ) :
    ((Vec.emb n).Lawful (Vec.ops n) ∧ LogAtOne (Vec.emb n) (Vec.ops n)) ∧
    (SO2.emb.Lawful SO2.ops ∧ LogAtOne SO2.emb SO2.ops) ∧
    (SE2.emb.Lawful (SE2.ops eps deps) ∧ LogAtOne SE2.emb (SE2.ops eps deps)) ∧
    (SO3.emb.Lawful (SO3.ops eps deps epi) ∧ LogAtOne SO3.emb (SO3.ops eps deps epi)) ∧
    (SE3.emb.Lawful (SE3.ops eps deps epi) ∧ LogAtOne SE3.emb (SE3.ops eps deps epi)) := by
  have hd : 0 < deps := he.trans hed
  have at0 : SO2.atan2 0 1 = 0 := by
    rw [SO2.atan2, show (⟨1, 0⟩ : ℂ) = 1 from rfl, Complex.arg_one]
  have e2 : (SE2.ops eps deps).exp 0 = ⟨0, 0, 1, 0⟩ := exp_zero_eq (SE2.lawful he)
    (by ext i j; fin_cases i <;> fin_cases j <;> simp [SE2.emb, SE2.toMatrix])
  have e3 : (SO3.ops eps deps epi).exp 0 = 1 := exp_zero_eq (SO3.lawful he deps epi) (by simp [SO3.emb])
  have e6 : (SE3.ops eps deps epi).exp 0 = ⟨1, 0⟩ := exp_zero_eq (SE3.lawful he deps epi)
    (by ext i j; fin_cases i <;> fin_cases j <;> simp [SE3.emb, SE3.toMatrix, SE3.hom])
  obtain ⟨l1, t1, -, -, -⟩ := SE3.log_of_one (eps := eps) (epi := epi) hpi
  refine ⟨⟨Vec.lawful, rfl, vec_log_jac _⟩, ⟨SO2.lawful, ?_, ?_⟩, ⟨SE2.lawful he, ?_, ?_⟩,
    ⟨SO3.lawful he deps epi, ?_, ?_⟩, SE3.lawful he deps epi, ?_, ?_⟩
  · funext i; fin_cases i
    simp [SO2.ops, SO2.exp, SO2.log, at0]
  · have := so2_log_jac (g := SO2.ops.exp 0) (by simp [SO2.ops, SO2.exp])
      (by simp [SO2.ops, SO2.exp, SO2.log, at0, Real.pi_ne_zero.symm])
    have e : SO2.ops.dlog (SO2.ops.exp 0) = 1 := by ext i j; fin_cases i; fin_cases j; rfl
    rwa [e] at this
  · rw [e2]
    funext i; fin_cases i <;> simp [SE2.ops, SE2.log, SE2.rot, SO2.log, at0]
  · rw [e2]
    have := se2_log_jac he hed (g := ⟨0, 0, 1, 0⟩) (by simp) (.inr (by simp [SE2.rot, SO2.log, at0]))
    have e : (SE2.ops eps deps).dlog ⟨0, 0, 1, 0⟩ = 1 := by
      ext i j; fin_cases i <;> fin_cases j <;> simp [SE2.ops, SE2.dlog, SE2.log, SE2.rot, SO2.log, at0, hd]
    rwa [e] at this
  · rw [e3]; exact l1
  · rw [e3]
    have := SO3.log_jac_one (deps := deps) he hd hpi
    have e : (SO3.ops eps deps epi).dlog 1 = 1 := by
      simp only [SO3.ops, SO3.jlog, l1, SO3.logA, SO3.logB, t1, if_pos hd]
      ext i j
      simp only [SO3.jlogOf, Matrix.add_apply]
      fin_cases i <;> fin_cases j <;> simp [outer3, SO3.hat]
    rwa [e] at this
  · rw [e6]
    show SE3.log eps epi ⟨1, 0⟩ = 0
    rw [SE3.log_one_rot he hpi]
    funext i; fin_cases i <;> simp [SE3.join]
  · rw [e6]
    have := SE3.log_jac_trans (deps := deps) he hd hpi 0
    have e : (SE3.ops eps deps epi).dlog ⟨1, 0⟩ = 1 := by
      show SE3.jlog eps deps epi ⟨1, 0⟩ = 1
      rw [SE3.jlog_trans he hd hpi]
      ext i j; fin_cases i <;> fin_cases j <;> simp [SE3.block, SO3.hat]
    rwa [e] at this

/-! ### Central differences -/

/-- The curve from `y (-t)` to `y t`. -/
theorem between_tangent {n m : ℕ} {G : Type} {E : Embedding n m G} {L : Ops n G} (h : E.Lawful L) {y : ℝ → G}
    {ξ : Fin n → ℝ} (hy : E.Tangent y ξ) : E.Tangent (fun t => L.between (y (-t)) (y t)) ((2 : ℝ) • ξ) := by
  obtain ⟨hv, hd⟩ := hy
  refine ⟨fun t => h.compose_valid _ _ (h.inverse_valid _ (hv _)) (hv _), ?_⟩
  have hneg : MatDeriv (fun t => E.toMatrix (y (-t))) (-(E.toMatrix (y 0) * E.hat ξ)) := by
    intro i j
    have h0 : HasDerivAt (fun t : ℝ => -t) (-1) 0 := (hasDerivAt_id 0).neg
    have h1 : HasDerivAt (fun s => E.toMatrix (y s) i j) ((E.toMatrix (y 0) * E.hat ξ) i j) (-(0 : ℝ)) := by
      rw [neg_zero]; exact hd i j
    have := h1.comp (0 : ℝ) h0
    refine this.congr_deriv ?_
    simp
  have hinv := hneg.inv (N := fun t => E.toMatrix (L.inverse (y (-t)))) fun t => h.toMatrix_inverse _ (hv _)
  simp only [Ops.between, h.toMatrix_compose]
  refine (hinv.mul hd).congr ?_
  simp only [neg_zero, Matrix.mul_neg, Matrix.neg_mul, neg_neg]
  rw [h.hat_smul, ← Matrix.mul_assoc, h.toMatrix_inverse _ (hv 0), Matrix.one_mul, Matrix.one_mul,
    Matrix.mul_assoc, h.toMatrix_inverse _ (hv 0), Matrix.mul_one, two_smul]

theorem central_limit {n m : ℕ} {G : Type} {E : Embedding n m G} {L : Ops n G} (h : E.Lawful L) (hl : LogAtOne E L)
    {y : ℝ → G} {ξ : Fin n → ℝ} (hy : E.Tangent y ξ) (c : Fin n) :
    Tendsto (fun δ => L.local (y (-δ)) (y δ) c / (2 * δ)) (𝓝[≠] 0) (𝓝 (ξ c)) := by
  have h0 : L.between (y (-0)) (y 0) = L.exp 0 := by
    rw [neg_zero]; exact h.inverse_compose (hy.1 0)
  have hd := hl.2 _ _ h0 (between_tangent h hy) c
  simp only [Matrix.one_mulVec] at hd
  have ht := hasDerivAt_iff_tendsto_slope_zero.1 hd
  have h2 := ht.div_const 2
  have e : ((2 : ℝ) • ξ) c / 2 = ξ c := by simp
  rw [e] at h2
  refine h2.congr fun δ => ?_
  have hz : L.log (L.between (y (-0)) (y 0)) c = 0 := by rw [h0, hl.1]; rfl
  simp only [zero_add, hz, sub_zero, smul_eq_mul, Ops.local]
  ring

theorem bcast_self {α : Type} {len : ℕ} (h : Fits len len) (v : Fin len → α) (j : Fin len) : bcast h v j = v j := by
  simp [bcast]

theorem compute_of_ok {a : ℕ} {n b : Fin a → ℕ} {G : Fin a → Type} {k b' : ℕ} {H : Type} {L : ∀ i, Ops (n i) (G i)}
    {L' : Ops k H} {F : (∀ i, Fin (b i) → G i) → Fin b' → H} {x : ∀ i, Fin (b i) → G i} {fdim : Option ℕ} {δ : ℝ}
    {J : ∀ i, Fin (batch b) → Matrix (Fin (rows fdim (n i))) (Fin (n i)) ℝ}
    (hJ : numericJacobian L L' F x fdim δ = .ok J) (i : Fin a) : compute L L' F x fdim δ i = .ok (J i) := by
  unfold numericJacobian at hJ
  split at hJ
  · cases hJ
  · split at hJ
    · rename_i h
      cases hJ
      dsimp only
      split
      · assumption
      · rename_i e he
        exact absurd (h i) (by rw [he]; simp [Except.isOk, Except.toBool])
    · cases hJ

theorem replaced_elem {a : ℕ} {b : Fin a → ℕ} {G : Fin a → Type} {B : ℕ} (hb : ∀ i, Fits (b i) B)
    (x : ∀ i, Fin (b i) → G i) (r : Fin B) (i : Fin a) (y : Fin (b i) → G i) :
    elem hb (replaced x i y) r = Function.update (elem hb x r) i (bcast (hb i) y r) := by
  funext j
  unfold elem replaced
  by_cases h : j = i
  · subst h; simp
  · simp [h]

theorem bcast_map {α β : Type} {len B : ℕ} (h : Fits len B) (v : Fin len → α) (f : α → β) (j : Fin B) :
    bcast h (fun r => f (v r)) j = f (bcast h v j) := by
  unfold bcast; split <;> rfl

/-- The entries of the Jacobian that is returned, for a function that acts on each element of the batch by `f`. -/
theorem entries {a : ℕ} {n b : Fin a → ℕ} {G : Fin a → Type} {k : ℕ} {H : Type} (L : ∀ i, Ops (n i) (G i))
    (L' : Ops k H) (f : (∀ i, G i) → H) (hb : ∀ i, Fits (b i) (batch b)) (x : ∀ i, Fin (b i) → G i)
    (fdim : Option ℕ) (δ : ℝ) (i : Fin a) (hk : rows fdim (n i) = k)
    {J : Fin (batch b) → Matrix (Fin (rows fdim (n i))) (Fin (n i)) ℝ}
    (hJ : compute L L' (fun y r => f (elem hb y r)) x fdim δ i = .ok J) (r : Fin (batch b)) (c) (d : Fin (n i)) :
    J r c d = L'.local
      (f (Function.update (elem hb x r) i ((L i).retract (elem hb x r i) ((-δ) • Pi.single d 1))))
      (f (Function.update (elem hb x r) i ((L i).retract (elem hb x r i) (δ • Pi.single d 1)))) (Fin.cast hk c) /
        (2 * δ) := by
  subst hk
  unfold compute at hJ
  split at hJ
  · rename_i h
    cases hJ
    have e1 : (fun j => if j = d then δ else 0 : Fin (n i) → ℝ) = δ • Pi.single d 1 := by
      funext j
      by_cases hj : j = d
      · subst hj; simp
      · simp [hj]
    simp only [Matrix.of_apply, bcast_self, column, e1, replaced_elem, ← neg_smul]
    have q : ∀ v : Fin (n i) → ℝ, bcast (hb i) (fun r => (L i).retract (x i r) v) r =
        (L i).retract (elem hb x r i) v := fun v => bcast_map (hb i) (x i) (fun g => (L i).retract g v) r
    rw [q, q]
    rfl
  · cases hJ

/-- `numeric_jacobian` raises exactly if it has no arguments, or if for some argument (with at least one degree
of freedom) the batch size or the dimension of the function cannot be broadcast. -/
theorem numeric_raises {a : ℕ} {n b : Fin a → ℕ} {G : Fin a → Type} {k b' : ℕ} {H : Type} (L : ∀ i, Ops (n i) (G i))
    (L' : Ops k H) (F : (∀ i, Fin (b i) → G i) → Fin b' → H) (x : ∀ i, Fin (b i) → G i) (fdim : Option ℕ) (δ : ℝ) :
    (∃ J, numericJacobian L L' F x fdim δ = .ok J) ↔
      a ≠ 0 ∧ ∀ i, n i ≠ 0 → (b' = batch b ∨ b' = 1) ∧ (k = rows fdim (n i) ∨ k = 1) := by
  unfold numericJacobian
  by_cases ha : a = 0
  · rw [if_pos ha]
    simp [ha]
  rw [if_neg ha]
  have key : ∀ i, (compute L L' F x fdim δ i).isOk = true ↔
      (n i ≠ 0 → (b' = batch b ∨ b' = 1) ∧ (k = rows fdim (n i) ∨ k = 1)) := by
    intro i
    unfold compute
    split
    · rename_i h
      refine iff_of_true rfl fun hn => h ⟨0, Nat.pos_of_ne_zero hn⟩
    · rename_i h
      refine iff_of_false (by simp [Except.isOk, Except.toBool]) fun hh => h fun d => ?_
      exact hh (by have := d.2; omega)
  by_cases hall : ∀ i, (compute L L' F x fdim δ i).isOk = true
  · rw [dif_pos hall]
    exact iff_of_true ⟨_, rfl⟩ ⟨ha, fun i => (key i).1 (hall i)⟩
  · rw [dif_neg hall]
    refine iff_of_false (by simp) fun hh => hall fun i => (key i).2 (hh.2 i)

/-- The batch size of the matrices that are returned is the largest one of the arguments; so if all arguments have batch
size 1 or `B`, and one has `B`, it is `B`. -/
theorem numeric_batch {a : ℕ} {b : Fin a → ℕ} (ha : a ≠ 0) : (∀ i, b i ≤ batch b) ∧ (∃ i, b i = batch b) ∧
    ∀ B, (∃ i, b i = B) → (∀ i, b i = B ∨ b i = 1) → B ≠ 0 → batch b = B ∧ ∀ i, Fits (b i) (batch b) := by
  have h1 : ∀ i, b i ≤ batch b := fun i => Finset.le_sup (Finset.mem_univ i)
  have h2 : ∃ i, b i = batch b := by
    obtain ⟨i, -, hi⟩ := Finset.exists_mem_eq_sup Finset.univ ⟨⟨0, Nat.pos_of_ne_zero ha⟩, Finset.mem_univ _⟩ b
    exact ⟨i, hi.symm⟩
  refine ⟨h1, h2, ?_⟩
  rintro B ⟨j, hj⟩ hB h0
  have e : batch b = B := by
    refine le_antisymm (Finset.sup_le fun i _ => ?_) (hj ▸ h1 j)
    rcases hB i with h | h <;> omega
  exact ⟨e, fun i => by rw [e]; exact hB i⟩

/-- **`numeric_jacobian` approximates the Jacobian.** For a function that acts on each element of the batch by
`f` (arguments of batch size 1 are broadcast), as `delta_mag` tends to zero, every entry of the matrix that is
returned for argument `i` and element `r` tends to the one of the Jacobian of `f` with respect to that argument
at that element. The groups of the arguments and of the result may be any of those in `groups_lawful`. -/
theorem numeric_limit {a : ℕ} {n m b : Fin a → ℕ} {G : Fin a → Type} {k l : ℕ} {H : Type}
    {E : ∀ i, Embedding (n i) (m i) (G i)} {L : ∀ i, Ops (n i) (G i)} (hL : ∀ i, (E i).Lawful (L i))
    {E' : Embedding k l H} {L' : Ops k H} (hL' : E'.Lawful L') (hlog : LogAtOne E' L')
    (f : (∀ i, G i) → H) (ha : a ≠ 0) (hb : ∀ i, Fits (b i) (batch b)) (x : ∀ i, Fin (b i) → G i)
    (hx : ∀ i r, (E i).valid (x i r)) (fdim : Option ℕ) (hk : ∀ i, rows fdim (n i) = k) :
    ∃ J : ℝ → ∀ i, Fin (batch b) → Matrix (Fin (rows fdim (n i))) (Fin (n i)) ℝ,
      (∀ δ, numericJacobian L L' (fun y r => f (elem hb y r)) x fdim δ = .ok (J δ)) ∧
      ∀ i r (J₀ : Matrix (Fin k) (Fin (n i)) ℝ),
        JacInto (E i) E' (fun g => f (Function.update (elem hb x r) i g)) (elem hb x r i) J₀ →
        ∀ c d, Tendsto (fun δ => J δ i r c d) (𝓝[≠] 0) (𝓝 (J₀ (Fin.cast (hk i) c) d)) := by
  have hok : ∀ δ, ∃ J, numericJacobian L L' (fun y r => f (elem hb y r)) x fdim δ = .ok J := fun δ =>
    (numeric_raises L L' _ x fdim δ).2 ⟨ha, fun i _ => ⟨.inl rfl, .inl (hk i).symm⟩⟩
  choose J hJ using hok
  refine ⟨J, hJ, fun i r J₀ hJ₀ c d => ?_⟩
  have hv : (E i).valid (elem hb x r i) := by
    unfold elem bcast
    split <;> exact hx _ _
  have ht := hJ₀ _ _ ((hL i).retract_zero _ _) ((hL i).tangent_retract hv (Pi.single d 1))
  have := central_limit hL' hlog ht (Fin.cast (hk i) c)
  rw [Matrix.mulVec_single_one] at this
  refine this.congr fun δ => ?_
  exact (entries L L' f hb x fdim δ i (hk i) (compute_of_ok (hJ δ) i) r c d).symm

/-- The check the library's tests make: for every group, `numeric_jacobian` of `compose`, for arguments of the
same batch size or one of batch size 1, tends to the matrices that `compose` returns as its Jacobians. -/
theorem numeric_compose {n m : ℕ} {G : Type} {E : Embedding n m G} {L : Ops n G} (hL : E.Lawful L)
    (hlog : LogAtOne E L) {b : Fin 2 → ℕ} (hb : ∀ i, Fits (b i) (batch b)) (x : ∀ i, Fin (b i) → G)
    (hx : ∀ i r, E.valid (x i r)) :
    ∃ J : ℝ → ∀ _ : Fin 2, Fin (batch b) → Matrix (Fin n) (Fin n) ℝ,
      (∀ δ, numericJacobian (fun _ => L) L
        (fun y r => L.compose (elem (G := fun _ => G) hb y r 0) (elem (G := fun _ => G) hb y r 1)) x none δ =
          .ok (J δ)) ∧
      ∀ r c d, Tendsto (fun δ => J δ 0 r c d) (𝓝[≠] 0)
          (𝓝 ((L.composeJac (bcast (hb 0) (x 0) r) (bcast (hb 1) (x 1) r)).1 c d)) ∧
        Tendsto (fun δ => J δ 1 r c d) (𝓝[≠] 0)
          (𝓝 ((L.composeJac (bcast (hb 0) (x 0) r) (bcast (hb 1) (x 1) r)).2 c d)) := by
  obtain ⟨J, hJ, ht⟩ := numeric_limit (a := 2) (G := fun _ => G) (E := fun _ => E) (L := fun _ => L) (fun _ => hL)
    hL hlog (fun y => L.compose (y 0) (y 1)) (by decide) hb x hx none (fun _ => rfl)
  have hv : ∀ i r, E.valid (bcast (hb i) (x i) r) := by
    intro i r
    unfold bcast
    split <;> exact hx _ _
  refine ⟨J, hJ, fun r c d => ⟨ht 0 r _ ?_ c d, ht 1 r _ ?_ c d⟩⟩
  · have := hL.compose_jac_left (a := bcast (hb 0) (x 0) r) (hv 1 r)
    intro y ξ h0 hy
    have := this y ξ h0 hy
    simpa [elem] using this
  · have := hL.compose_jac_right (b := bcast (hb 1) (x 1) r) (hv 0 r)
    intro y ξ h0 hy
    have := this y ξ h0 hy
    simpa [elem] using this

/-- Batches of sizes 1 and 3 of poses meet the hypotheses. -/
example : ∃ (hb : ∀ i, Fits (![1, 3] i) (batch ![1, 3])) (x : ∀ i, Fin (![1, 3] i) → SE2),
    (∀ i r, SE2.emb.valid (x i r)) ∧ x 1 (0 : Fin 3) ≠ x 1 (2 : Fin 3) := by
  have hb : batch ![1, 3] = 3 := by decide
  refine ⟨fun i => ?_, fun i r => if r.1 = 0 then ⟨0, 0, 1, 0⟩ else ⟨2, 0, 0, 1⟩, fun i r => ?_, ?_⟩
  · rw [hb]; unfold Fits; fin_cases i <;> simp
  · dsimp only; split <;> simp [SE2.emb, SE2.Valid]
  · simp

/-- If `function_dim` is omitted (or 0) and the function has dimension 1, every row of the result for an
argument with several degrees of freedom is the gradient, without an exception. -/
theorem numeric_repeats_rows {a : ℕ} {n b : Fin a → ℕ} {G : Fin a → Type} {H : Type} (L : ∀ i, Ops (n i) (G i))
    (L' : Ops 1 H) (f : (∀ i, G i) → H) (ha : a ≠ 0) (hb : ∀ i, Fits (b i) (batch b)) (x : ∀ i, Fin (b i) → G i)
    (δ : ℝ) (fdim : Option ℕ) (hf : fdim = none ∨ fdim = some 0) :
    ∃ J, numericJacobian L L' (fun y r => f (elem hb y r)) x fdim δ = .ok J ∧ (∀ i, rows fdim (n i) = n i) ∧
      ∀ i r c c' d, J i r c d = J i r c' d := by
  obtain ⟨J, hJ⟩ := (numeric_raises L L' (fun y r => f (elem hb y r)) x fdim δ).2 ⟨ha, fun i _ => ⟨.inl rfl, .inr rfl⟩⟩
  refine ⟨J, hJ, ?_, fun i r c c' d => ?_⟩
  · rcases hf with rfl | rfl <;> intro i <;> rfl
  have := compute_of_ok hJ i
  unfold compute at this
  split at this
  · rename_i h
    have e := Except.ok.inj this
    rw [← e]
    have hb1 : ∀ {α : Type} {B : ℕ} (hh : Fits 1 B) (v : Fin 1 → α) (j : Fin B), bcast hh v j = v 0 := by
      intro α B hh v j
      unfold bcast
      split
      · exact congrArg v (Subsingleton.elim _ _)
      · rfl
    simp only [Matrix.of_apply, hb1]
  · cases this

/-! ### The error for a finite step -/

/-- If `|g'| ≤ c tᵐ` on `[0, T]` and `g 0 = 0` then `|g| ≤ c tᵐ⁺¹ / (m + 1)`. -/
theorem integrate_bound {g g' : ℝ → ℝ} {c T : ℝ} (m : ℕ) (h0 : g 0 = 0)
    (hg : ∀ t, 0 ≤ t → t ≤ T → HasDerivAt g (g' t) t) (hb : ∀ t, 0 ≤ t → t ≤ T → |g' t| ≤ c * t ^ m) :
    ∀ t, 0 ≤ t → t ≤ T → |g t| ≤ c / (m + 1) * t ^ (m + 1) := by
  have hm : ((m : ℝ) + 1) ≠ 0 := by positivity
  have hp : ∀ t : ℝ, HasDerivAt (fun s => c / (m + 1) * s ^ (m + 1)) (c * t ^ m) t := by
    intro t
    refine ((hasDerivAt_pow (m + 1) t).const_mul (c / (m + 1))).congr_deriv ?_
    have e : m + 1 - 1 = m := rfl
    rw [e]
    push_cast
    field_simp
  have mono : ∀ (q q' : ℝ → ℝ), (∀ t, 0 ≤ t → t ≤ T → HasDerivAt q (q' t) t) → (∀ t, 0 ≤ t → t ≤ T → 0 ≤ q' t) →
      ∀ t, 0 ≤ t → t ≤ T → q 0 ≤ q t := by
    intro q q' hq hq' t ht hT
    have hmono : MonotoneOn q (Set.Icc 0 T) := by
      refine monotoneOn_of_deriv_nonneg (convex_Icc 0 T) (fun s hs => (hq s hs.1 hs.2).continuousAt.continuousWithinAt) ?_ ?_
      · intro s hs
        rw [interior_Icc] at hs
        exact (hq s hs.1.le hs.2.le).differentiableAt.differentiableWithinAt
      · intro s hs
        rw [interior_Icc] at hs
        rw [(hq s hs.1.le hs.2.le).deriv]
        exact hq' s hs.1.le hs.2.le
    exact hmono ⟨le_rfl, ht.trans hT⟩ ⟨ht, hT⟩ ht
  intro t ht hT
  have z : (0 : ℝ) ^ (m + 1) = 0 := zero_pow (Nat.succ_ne_zero m)
  have u1 := mono (fun s => c / (m + 1) * s ^ (m + 1) - g s) (fun s => c * s ^ m - g' s)
    (fun s a b => (hp s).sub (hg s a b)) (fun s a b => by have := (abs_le.1 (hb s a b)).2; linarith) t ht hT
  have u2 := mono (fun s => c / (m + 1) * s ^ (m + 1) + g s) (fun s => c * s ^ m + g' s)
    (fun s a b => (hp s).add (hg s a b)) (fun s a b => by have := (abs_le.1 (hb s a b)).1; linarith) t ht hT
  simp only [z, h0, mul_zero, sub_zero, add_zero] at u1 u2
  exact abs_le.2 ⟨by linarith, by linarith⟩

/-- The error of a central difference is at most `M δ² / 6`, with `M` a bound of the third derivative. -/
theorem central_error {φ φ₁ φ₂ φ₃ : ℝ → ℝ} {δ M : ℝ} (hδ : 0 < δ)
    (h1 : ∀ t, |t| ≤ δ → HasDerivAt φ (φ₁ t) t) (h2 : ∀ t, |t| ≤ δ → HasDerivAt φ₁ (φ₂ t) t)
    (h3 : ∀ t, |t| ≤ δ → HasDerivAt φ₂ (φ₃ t) t) (hM : ∀ t, |t| ≤ δ → |φ₃ t| ≤ M) :
    |(φ δ - φ (-δ)) / (2 * δ) - φ₁ 0| ≤ M * δ ^ 2 / 6 := by
  have ab : ∀ t, 0 ≤ t → t ≤ δ → |t| ≤ δ ∧ |-t| ≤ δ := fun t a b => by rw [abs_neg, abs_of_nonneg a]; exact ⟨b, b⟩
  have refl : ∀ {q q' : ℝ → ℝ} {t : ℝ}, HasDerivAt q (q' (-t)) (-t) → HasDerivAt (fun s => q (-s)) (-(q' (-t))) t := by
    intro q q' t h
    have := h.comp t ((hasDerivAt_id t).neg)
    refine this.congr_deriv ?_
    ring
  have s2 := integrate_bound (g := fun t => φ₂ t - φ₂ (-t)) (g' := fun t => φ₃ t - -(φ₃ (-t))) (c := 2 * M) (T := δ) 0
    (by simp) (fun t a b => (h3 t (ab t a b).1).sub (refl (h3 _ (ab t a b).2))) (fun t a b => by
      have e1 := hM t (ab t a b).1
      have e2 := hM (-t) (ab t a b).2
      have := abs_add_le (φ₃ t) (φ₃ (-t))
      rw [sub_neg_eq_add, pow_zero, mul_one]
      linarith)
  have s1 := integrate_bound (g := fun t => φ₁ t + φ₁ (-t) - 2 * φ₁ 0) (g' := fun t => φ₂ t - φ₂ (-t)) (c := 2 * M) (T := δ) 1
    (by simp only [neg_zero]; ring) (fun t a b => by
      refine (((h2 t (ab t a b).1).add (refl (h2 _ (ab t a b).2))).sub_const (2 * φ₁ 0)).congr_deriv ?_
      ring)
    (fun t a b => by have := s2 t a b; simpa using this)
  have s0 := integrate_bound (g := fun t => φ t - φ (-t) - 2 * φ₁ 0 * t) (g' := fun t => φ₁ t + φ₁ (-t) - 2 * φ₁ 0)
    (c := M) (T := δ) 2 (by simp) (fun t a b => by
      refine (((h1 t (ab t a b).1).sub (refl (h1 _ (ab t a b).2))).sub ((hasDerivAt_id t).const_mul (2 * φ₁ 0))).congr_deriv ?_
      ring)
    (fun t a b => by have := s1 t a b; norm_num at this; linarith [this])
  have := s0 δ hδ.le le_rfl
  norm_num at this
  have e : (φ δ - φ (-δ)) / (2 * δ) - φ₁ 0 = (φ δ - φ (-δ) - 2 * φ₁ 0 * δ) / (2 * δ) := by
    field_simp
  rw [e, abs_div, abs_of_pos (by linarith : 0 < 2 * δ), div_le_iff₀ (by linarith)]
  calc _ ≤ M / 3 * δ ^ 3 := this
    _ = _ := by ring

/-- **The error of `numeric_jacobian`** for functions with values in vectors: if the function, along the
perturbation of one degree of freedom by up to `delta_mag`, has a third derivative bounded by `M`, the entry
differs from the derivative by at most `M delta_mag² / 6`; so it is exact for functions whose third derivative
vanishes. -/
theorem numeric_error {a : ℕ} {n b : Fin a → ℕ} {G : Fin a → Type} {k : ℕ} (L : ∀ i, Ops (n i) (G i))
    (f : (∀ i, G i) → Fin k → ℝ) (hb : ∀ i, Fits (b i) (batch b)) (x : ∀ i, Fin (b i) → G i)
    (fdim : Option ℕ) (hk : ∀ i, rows fdim (n i) = k) {δ : ℝ} (hδ : 0 < δ)
    {J : ∀ i, Fin (batch b) → Matrix (Fin (rows fdim (n i))) (Fin (n i)) ℝ}
    (hJ : numericJacobian L (Vec.ops k) (fun y r => f (elem hb y r)) x fdim δ = .ok J)
    (i : Fin a) (r : Fin (batch b)) (c) (d : Fin (n i)) {φ₁ φ₂ φ₃ : ℝ → ℝ} {M : ℝ}
    (h1 : ∀ t, |t| ≤ δ → HasDerivAt (fun s => f (Function.update (elem hb x r) i
      ((L i).retract (elem hb x r i) (s • Pi.single d 1))) (Fin.cast (hk i) c)) (φ₁ t) t)
    (h2 : ∀ t, |t| ≤ δ → HasDerivAt φ₁ (φ₂ t) t) (h3 : ∀ t, |t| ≤ δ → HasDerivAt φ₂ (φ₃ t) t)
    (hM : ∀ t, |t| ≤ δ → |φ₃ t| ≤ M) : |J i r c d - φ₁ 0| ≤ M * δ ^ 2 / 6 := by
  have e := entries L (Vec.ops k) f hb x fdim δ i (hk i) (compute_of_ok hJ i) r c d
  have hv : ∀ u v : Fin k → ℝ, ∀ c, (Vec.ops k).local u v c = v c - u c := by
    intro u v c
    simp [Ops.local, Ops.between, Vec.ops]
    ring
  rw [hv] at e
  rw [e]
  exact central_error hδ h1 h2 h3 hM

/-! ### `numeric_grad` -/

theorem store_float (v : ℝ) : store false v = v := rfl

/-- For arrays of floating-point numbers `numeric_grad` tends to the gradient, and its error is bounded as
above. -/
theorem numeric_grad_approx {m : ℕ} (f : (Fin m → ℝ) → ℝ) (x : Fin m → ℝ) (i : Fin m) :
    (∀ g : ℝ, HasDerivAt (fun t : ℝ => f (x + t • Pi.single i (1 : ℝ))) g 0 →
      Tendsto (fun h => numericGrad false f h x i) (𝓝[≠] 0) (𝓝 g)) ∧
    (∀ {φ₁ φ₂ φ₃ : ℝ → ℝ} {h M : ℝ}, 0 < h →
      (∀ t, |t| ≤ h → HasDerivAt (fun s : ℝ => f (x + s • Pi.single i (1 : ℝ))) (φ₁ t) t) →
      (∀ t, |t| ≤ h → HasDerivAt φ₁ (φ₂ t) t) → (∀ t, |t| ≤ h → HasDerivAt φ₂ (φ₃ t) t) →
      (∀ t, |t| ≤ h → |φ₃ t| ≤ M) → |numericGrad false f h x i - φ₁ 0| ≤ M * h ^ 2 / 6) := by
  have e1 : ∀ h : ℝ, (fun j => if j = i then h else 0 : Fin m → ℝ) = h • Pi.single i (1 : ℝ) := by
    intro h
    funext j
    by_cases hj : j = i
    · subst hj; simp
    · simp [hj]
  have e : ∀ h : ℝ, numericGrad false f h x i =
      (f (x + h • Pi.single i (1 : ℝ)) - f (x + (-h) • Pi.single i (1 : ℝ))) / (2 * h) := by
    intro h
    simp only [numericGrad, store_float, e1, neg_smul, ← sub_eq_add_neg]
  constructor
  · intro g hg
    simp only [e]
    have a1 := hasDerivAt_iff_tendsto_slope_zero.1 hg
    have hn : HasDerivAt (fun t : ℝ => f (x + (-t) • Pi.single i (1 : ℝ))) (-g) 0 := by
      have h0 : HasDerivAt (fun t : ℝ => -t) (-1) 0 := (hasDerivAt_id 0).neg
      have hg' : HasDerivAt (fun t : ℝ => f (x + t • Pi.single i (1 : ℝ))) g (-(0 : ℝ)) := by rw [neg_zero]; exact hg
      refine (hg'.comp (0 : ℝ) h0).congr_deriv ?_
      ring
    have a2 := hasDerivAt_iff_tendsto_slope_zero.1 hn
    have := (a1.sub a2).div_const 2
    have eg : (g - -g) / 2 = g := by ring
    rw [eg] at this
    refine this.congr fun h => ?_
    simp only [zero_add, neg_zero, smul_eq_mul]
    ring
  · intro φ₁ φ₂ φ₃ h M hh h1 h2 h3 hM
    rw [e]
    exact central_error hh h1 h2 h3 hM

/-- For arrays of integers `numeric_grad` returns zero, whatever the function, if the step is smaller than 1. -/
theorem numeric_grad_int {m : ℕ} (f : (Fin m → ℝ) → ℝ) (x : Fin m → ℝ) {h : ℝ} (hh : |h| < 1) :
    numericGrad true f h x = 0 := by
  have hs : store true h = 0 := by
    obtain ⟨h1, h2⟩ := abs_lt.1 hh
    unfold store
    rw [if_pos rfl]
    split
    · rename_i h0
      have : ⌊h⌋ = 0 := Int.floor_eq_iff.2 ⟨by simpa using h0, by simpa using h2⟩
      simp [this]
    · rename_i h0
      have : ⌈h⌉ = 0 := Int.ceil_eq_iff.2 ⟨by push_cast; linarith, by push_cast; linarith⟩
      simp [this]
  funext i
  have z : (fun j => if j = i then (0 : ℝ) else 0 : Fin m → ℝ) = 0 := by funext j; simp
  simp only [numericGrad, hs, z]
  simp [store]

/-- `x²` at 3, with the default step: exactly 6. -/
example : numericGrad false (fun y : Fin 1 → ℝ => y 0 ^ 2) (1 / 10000) (fun _ => 3) 0 = 6 := by
  simp [numericGrad, store]; norm_num

end Verif.Numeric
