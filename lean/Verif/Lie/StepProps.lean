import Verif.Lie.Step
import Verif.Gauss.Props
import Verif.Autodiff.Props
import Verif.Geometry.BackwardProps
import Mathlib.Analysis.Calculus.Deriv.Prod
import Mathlib.Analysis.Calculus.Deriv.Slope

/-!
# Optimizer steps on Lie group tensors (C86)
-/

namespace Verif.Lie
open Verif.Geometry Verif.Gauss Matrix

/-! ## Specification -/

/-- The rows that represent group elements: unit cosine/sine pairs, rotation matrices. -/
def RowValid (k : Kind) (r : Row k) : Prop := (⟨k, ofRow k r⟩ : Var).Valid

/-- `G` is the Euclidean gradient of the loss `f` at `x` (as `backward()` computes it): along every
curve of legal tensors through `x` with differentiable entries, the derivative of `f` is the inner
product of `G` with the derivatives of the entries. -/
def IsGrad (k : Kind) {B : ℕ} (f : Tens k B → ℝ) (x G : Tens k B) : Prop :=
  ∀ c : ℝ → Tens k B, c 0 = x → (∀ t b, RowValid k (c t b)) →
    ∀ v : Tens k B, (∀ b i, HasDerivAt (fun t => c t b i) (v b i) 0) →
      HasDerivAt (fun t => f (c t)) (∑ b, ∑ i, G b i * v b i) 0

/-- `x` is a stationary point of `f` on the group: `f` has derivative zero along every curve of legal
tensors through `x` with differentiable entries. -/
def Stationary (k : Kind) {B : ℕ} (f : Tens k B → ℝ) (x : Tens k B) : Prop :=
  ∀ c : ℝ → Tens k B, c 0 = x → (∀ t b, RowValid k (c t b)) →
    ∀ v : Tens k B, (∀ b i, HasDerivAt (fun t => c t b i) (v b i) 0) →
      HasDerivAt (fun t => f (c t)) 0 0

/-- No division by zero. -/
def Op.Defined {k : Kind} {B : ℕ} : Op k B → Prop
  | .addcdiv _ t2 _ => ∀ b i, t2 b i ≠ 0
  | _ => True

/-! ## Lemmas -/

theorem mat33_row (R : M3) :
    Autodiff.mat33 ![R 0 0, R 0 1, R 0 2, R 1 0, R 1 1, R 1 2, R 2 0, R 2 1, R 2 2] = R := by
  ext i j; fin_cases i <;> fin_cases j <;> rfl

theorem mat34_row (g : SE3) :
    Autodiff.mat34 ![g.R 0 0, g.R 0 1, g.R 0 2, g.t 0, g.R 1 0, g.R 1 1, g.R 1 2, g.t 1,
      g.R 2 0, g.R 2 1, g.R 2 2, g.t 2] = g := by
  rcases g with ⟨R, t⟩
  simp only [Autodiff.mat34, SE3.mk.injEq]
  constructor
  · ext i j; fin_cases i <;> fin_cases j <;> rfl
  · ext i; fin_cases i <;> rfl

theorem ofRow_toRow (k : Kind) (g : k.Elem) : ofRow k (toRow k g) = g := by
  cases k with
  | so3 => exact mat33_row g
  | se3 => exact mat34_row g
  | _ => rfl

theorem toRow_ofRow (k : Kind) (r : Row k) : toRow k (ofRow k r) = r := by
  cases k with
  | vector n => rfl
  | point2 => rfl
  | point3 => rfl
  | so2 => funext i; fin_cases i <;> rfl
  | se2 => funext i; fin_cases i <;> rfl
  | so3 => funext i; fin_cases i <;> rfl
  | se3 => funext i; fin_cases i <;> rfl

theorem so3Project_eq (R G : M3) :
    so3Project R G = SO3.leftProject R (fun _ : Unit => G) () := by
  funext i
  fin_cases i <;> simp [so3Project, SO3.leftProject, SO3.leftAct, SO3.project, Matrix.mul_apply,
    Fin.sum_univ_three] <;> ring

theorem se3Project_eq (g G : SE3) :
    se3Project g G = SE3.leftProject g (fun _ : Unit => G) () := by
  funext i
  fin_cases i <;> simp [se3Project, SE3.leftProject, SE3.project, SE3.inverse, SE3.join, SO3.project,
    Matrix.mul_apply, Matrix.mulVec, dotProduct, Fin.sum_univ_three] <;> ring

theorem lawful_kind {e : Eps} (he : e.Legal) (k : Kind) : (emb k).2.Lawful (k.ops e) := by
  cases k with
  | vector n => exact Vec.lawful
  | point2 => exact Vec.lawful
  | point3 => exact Vec.lawful
  | so2 => exact SO2.lawful
  | se2 => exact SE2.lawful he.near
  | so3 => exact SO3.lawful he.near _ _
  | se3 => exact SE3.lawful he.near _ _

theorem valid_iff (k : Kind) (g : k.Elem) : (emb k).2.valid g ↔ (⟨k, g⟩ : Var).Valid := by
  cases k <;> exact Iff.rfl

theorem rowValid_iff (k : Kind) (r : Row k) : RowValid k r ↔ (emb k).2.valid (ofRow k r) :=
  (valid_iff k _).symm

/-- `project` turns the Euclidean gradient into derivatives along tangent vectors. -/
theorem represents (k : Kind) {x : ℝ → k.Elem} {ξ : Fin k.dof → ℝ} (ht : (emb k).2.Tangent x ξ) :
    ∃ v, VecDeriv (fun t => toRow k (x t)) v ∧ ∀ G, project k (x 0) G ⬝ᵥ ξ = G ⬝ᵥ v := by
  cases k with
  | vector n => exact Autodiff.vec_represents n x ξ ht
  | point2 => exact Autodiff.vec_represents 2 x ξ ht
  | point3 => exact Autodiff.vec_represents 3 x ξ ht
  | so2 => exact Autodiff.so2_represents x ξ ht
  | se2 => exact Autodiff.se2_represents x ξ ht
  | so3 =>
    obtain ⟨v, hv, h⟩ := Autodiff.so3_represents x ξ ht
    refine ⟨v, hv, fun G => Eq.trans ?_ (h G)⟩
    exact congrArg (fun u : Fin 3 → ℝ => u ⬝ᵥ ξ)
      ((so3Project_eq (x 0) (Autodiff.mat33 G)).trans
        (congrArg (fun R => SO3.leftProject R (fun _ : Unit => Autodiff.mat33 G) ())
          (mat33_row (x 0)).symm))
  | se3 =>
    obtain ⟨v, hv, h⟩ := Autodiff.se3_represents x ξ ht
    refine ⟨v, hv, fun G => Eq.trans ?_ (h G)⟩
    exact congrArg (fun u : Fin 6 → ℝ => u ⬝ᵥ ξ)
      ((se3Project_eq (x 0) (Autodiff.mat34 G)).trans
        (congrArg (fun R => SE3.leftProject R (fun _ : Unit => Autodiff.mat34 G) ())
          (mat34_row (x 0)).symm))

theorem vec_tangent {n : ℕ} {c : ℝ → Fin n → ℝ} {v : Fin n → ℝ} (hv : VecDeriv c v) :
    (Vec.emb n).Tangent c v := by
  refine ⟨fun _ => trivial, fun i j => ?_⟩
  change HasDerivAt (fun t => ((1 : Matrix (Fin (n + 1)) (Fin (n + 1)) ℝ) + Vec.hat (c t)) i j)
    (((1 + Vec.hat (c 0)) * Vec.hat v) i j) 0
  rw [Matrix.add_mul, Vec.hat_mul_hat, Matrix.one_mul, add_zero]
  simp only [Matrix.add_apply]
  refine HasDerivAt.const_add _ ?_
  unfold Vec.hat
  simp only [Matrix.of_apply]
  split_ifs
  · induction i using Fin.lastCases with
    | last => simpa using hasDerivAt_const (0 : ℝ) (0 : ℝ)
    | cast i => simpa using hv i
  · exact hasDerivAt_const _ _

/-- A curve on the unit circle is orthogonal to its derivative. -/
theorem circle {p q : ℝ → ℝ} {p' q' : ℝ} (hp : HasDerivAt p p' 0) (hq : HasDerivAt q q' 0)
    (h : ∀ t, p t ^ 2 + q t ^ 2 = 1) :
    p' = -(q 0 * (p 0 * q' - q 0 * p')) ∧ q' = p 0 * (p 0 * q' - q 0 * p') := by
  have h1 := (hp.fun_pow 2).fun_add (hq.fun_pow 2)
  simp only [h] at h1
  have h2 := h1.unique (hasDerivAt_const (0 : ℝ) (1 : ℝ))
  have h0 := h 0
  have h3 : p 0 * p' + q 0 * q' = 0 := by
    norm_num at h2; linarith
  constructor
  · linear_combination (-p') * h0 + p 0 * h3
  · linear_combination (-q') * h0 + q 0 * h3

theorem so2_tangent {c : ℝ → Fin 2 → ℝ} (hc : ∀ t, c t 0 ^ 2 + c t 1 ^ 2 = 1) {v : Fin 2 → ℝ}
    (hv : VecDeriv c v) : ∃ ξ, SO2.emb.Tangent (fun t => (⟨c t 0, c t 1⟩ : SO2)) ξ := by
  obtain ⟨h1, h2⟩ := circle (hv 0) (hv 1) hc
  refine ⟨fun _ => c 0 0 * v 1 - c 0 1 * v 0, hc, fun i j => ?_⟩
  set w := c 0 0 * v 1 - c 0 1 * v 0
  fin_cases i <;> fin_cases j <;>
    simp [SO2.emb, SO2.toMatrix, SO2.hat, Matrix.mul_apply, Fin.sum_univ_two]
  · exact (hv 0).congr_deriv h1
  · exact (hv 1).neg.congr_deriv (by rw [h2])
  · exact (hv 1).congr_deriv h2
  · exact (hv 0).congr_deriv h1

theorem se2_tangent {c : ℝ → Fin 4 → ℝ} (hc : ∀ t, c t 2 ^ 2 + c t 3 ^ 2 = 1) {v : Fin 4 → ℝ}
    (hv : VecDeriv c v) :
    ∃ ξ, SE2.emb.Tangent (fun t => (⟨c t 0, c t 1, c t 2, c t 3⟩ : SE2)) ξ := by
  obtain ⟨h1, h2⟩ := circle (hv 2) (hv 3) hc
  refine ⟨![c 0 2 * v 0 + c 0 3 * v 1, c 0 2 * v 1 - c 0 3 * v 0, c 0 2 * v 3 - c 0 3 * v 2], hc,
    fun i j => ?_⟩
  set w := c 0 2 * v 3 - c 0 3 * v 2
  have h0 := hc 0
  fin_cases i <;> fin_cases j <;>
    simp [SE2.emb, SE2.toMatrix, SE2.hat, Matrix.mul_apply, Fin.sum_univ_three]
  · exact (hv 2).congr_deriv h1
  · exact (hv 3).neg.congr_deriv (by rw [h2])
  · exact (hv 0).congr_deriv (by linear_combination (-v 0) * h0)
  · exact (hv 3).congr_deriv h2
  · exact (hv 2).congr_deriv h1
  · exact (hv 1).congr_deriv (by linear_combination (-v 1) * h0)
  all_goals exact hasDerivAt_const _ _

theorem so3_tangent {c : ℝ → Fin 9 → ℝ} (hc : ∀ t, SO3.Valid (Autodiff.mat33 (c t))) {v : Fin 9 → ℝ}
    (hv : VecDeriv c v) : ∃ ξ, SO3.emb.Tangent (fun t => Autodiff.mat33 (c t)) ξ := by
  have hd : MatDeriv (fun t => Autodiff.mat33 (c t)) (Autodiff.mat33 v) := by
    intro i j
    fin_cases i <;> fin_cases j <;> exact hv _
  obtain ⟨w, hw⟩ := SO3.curve_tangent hc hd
  exact ⟨w, hc, by rw [hw] at hd; exact hd⟩

theorem se3_tangent {c : ℝ → Fin 12 → ℝ} (hc : ∀ t, SE3.Valid (Autodiff.mat34 (c t)))
    {v : Fin 12 → ℝ} (hv : VecDeriv c v) :
    ∃ ξ, SE3.emb.Tangent (fun t => Autodiff.mat34 (c t)) ξ := by
  have hR : MatDeriv (fun t => (Autodiff.mat34 (c t)).R) (Autodiff.mat34 v).R := by
    intro i j
    fin_cases i <;> fin_cases j <;> exact hv _
  have ht : VecDeriv (fun t => (Autodiff.mat34 (c t)).t) (Autodiff.mat34 v).t := by
    intro i
    fin_cases i <;> exact hv _
  obtain ⟨w, hw⟩ := SO3.curve_tangent (x := fun t => (Autodiff.mat34 (c t)).R) hc hR
  refine ⟨SE3.join ((Autodiff.mat34 (c 0)).Rᵀ *ᵥ (Autodiff.mat34 v).t) w, SE3.tangent_iff.2
    ⟨hc, ?_, ?_⟩⟩
  · rw [SE3.ang_join, ← hw]; exact hR
  · rw [SE3.lin_join, Matrix.mulVec_mulVec, (hc 0).mul_transpose, Matrix.one_mulVec]; exact ht

/-- A curve of legal rows with differentiable entries has a tangent vector. -/
theorem exists_tangent (k : Kind) {c : ℝ → Row k} (hc : ∀ t, RowValid k (c t)) {v : Row k}
    (hv : VecDeriv c v) : ∃ ξ, (emb k).2.Tangent (fun t => ofRow k (c t)) ξ := by
  cases k with
  | vector n => exact ⟨v, vec_tangent hv⟩
  | point2 => exact ⟨v, vec_tangent hv⟩
  | point3 => exact ⟨v, vec_tangent hv⟩
  | so2 => exact so2_tangent hc hv
  | se2 => exact se2_tangent hc hv
  | so3 => exact so3_tangent hc hv
  | se3 => exact se3_tangent hc hv

/-- The value of `add_` in the tangent context. -/
noncomputable def moved (e : Eps) {k : Kind} {B : ℕ} (x u : Tens k B) (a : ℝ) : Tens k B := fun b =>
  toRow k ((k.ops e).retract (ofRow k (x b)) (a • project k (ofRow k (x b)) (u b)))

theorem apply_add (e : Eps) {k : Kind} {B : ℕ} (x u : Tens k B) (a : ℝ) (d : ℕ) :
    apply e (d + 1) true x (.add u a) = .ok (moved e x u a) := by
  simp [apply, add]; rfl

theorem moved_valid {e : Eps} (he : e.Legal) {k : Kind} {B : ℕ} {x : Tens k B}
    (hx : ∀ b, RowValid k (x b)) (u : Tens k B) (a : ℝ) (b : Fin B) :
    RowValid k (moved e x u a b) := by
  rw [rowValid_iff, moved, ofRow_toRow]
  exact (lawful_kind he k).compose_valid _ _ ((rowValid_iff k _).1 (hx b))
    ((lawful_kind he k).exp_valid _)

theorem moved_zero {e : Eps} (he : e.Legal) {k : Kind} {B : ℕ} (x u : Tens k B) :
    moved e x u 0 = x := by
  funext b
  rw [moved, (lawful_kind he k).retract_zero, toRow_ofRow]

/-! ## C86 -/

/-- In the tangent context every optimizer keeps its parameter on the group: after any sequence of
in-place operations with whatever operands, every row is a legal group element. -/
theorem lie_steps_stay_valid {e : Eps} (he : e.Legal) {k : Kind} {B : ℕ} (x : Tens k B)
    (hx : ∀ b, RowValid k (x b)) (ops : List (Op k B)) (ho : ∀ o ∈ ops, o.Defined) (depth : ℕ) :
    ∃ y, run e (depth + 2) true x ops = .ok y ∧ ∀ b, RowValid k (y b) := by
  induction ops generalizing x with
  | nil => exact ⟨x, rfl, hx⟩
  | cons o os ih =>
    have key : ∃ u a, apply e (depth + 2) true x o = .ok (moved e x u a) := by
      cases o with
      | add u a => exact ⟨u, a, apply_add e x u a _⟩
      | addcdiv t1 t2 v =>
        have h := ho _ List.mem_cons_self
        refine ⟨fun b i => v * t1 b i / t2 b i, 1, ?_⟩
        have : ¬ ∃ b i, t2 b i = 0 := by push Not; exact h
        simp only [apply, addcdiv, if_neg this]
        exact apply_add e x _ _ depth
      | addcmul t1 t2 v => exact ⟨fun b i => v * t1 b i * t2 b i, 1, apply_add e x _ _ depth⟩
    obtain ⟨u, a, h⟩ := key
    obtain ⟨y, hy, hv⟩ := ih (moved e x u a) (moved_valid he hx u a)
      fun o' h' => ho o' (List.mem_cons_of_mem _ h')
    exact ⟨y, by simp only [run, h]; exact hy, hv⟩

/-- A step along the Euclidean gradient `G` of a loss follows the gradient on the group: as a
function of the step size, the loss has slope `Σ_b |project(x_b, G_b)|²` at 0. -/
theorem lie_step_slope {e : Eps} (he : e.Legal) {k : Kind} {B : ℕ} {f : Tens k B → ℝ}
    {x G : Tens k B} (hx : ∀ b, RowValid k (x b)) (hG : IsGrad k f x G) (depth : ℕ) :
    ∃ y : ℝ → Tens k B, (∀ a, apply e (depth + 1) true x (.add G a) = .ok (y a)) ∧ y 0 = x ∧
      (∀ a b, RowValid k (y a b)) ∧
      HasDerivAt (fun a => f (y a)) (∑ b, ∑ j, project k (ofRow k (x b)) (G b) j ^ 2) 0 := by
  refine ⟨moved e x G, (apply_add e x G · depth), moved_zero he x G, moved_valid he hx G, ?_⟩
  have hr b := represents k ((lawful_kind he k).tangent_retract ((rowValid_iff k _).1 (hx b))
    (project k (ofRow k (x b)) (G b)))
  choose v hv hp using hr
  have := hG (moved e x G) (moved_zero he x G) (moved_valid he hx G) v fun b i => hv b i
  refine this.congr_deriv (Finset.sum_congr rfl fun b _ => ?_)
  have h1 := hp b (G b)
  rw [(lawful_kind he k).retract_zero] at h1
  rw [← dotProduct, ← h1, dotProduct]
  exact Finset.sum_congr rfl fun j _ => by ring

/-- `project` vanishes on every row exactly at the stationary points. -/
theorem lie_step_stationary {e : Eps} (he : e.Legal) {k : Kind} {B : ℕ} {f : Tens k B → ℝ}
    {x G : Tens k B} (hx : ∀ b, RowValid k (x b)) (hG : IsGrad k f x G) :
    Stationary k f x ↔ ∀ b, project k (ofRow k (x b)) (G b) = 0 := by
  constructor
  · intro h
    obtain ⟨y, hy, hy0, hyv, hd⟩ := lie_step_slope he hx hG 0
    have hym : y = moved e x G := by
      funext a
      have := (hy a).symm.trans (apply_add e x G a 0)
      exact Except.ok.inj this
    have hr b := represents k ((lawful_kind he k).tangent_retract ((rowValid_iff k _).1 (hx b))
      (project k (ofRow k (x b)) (G b)))
    choose v hv hp using hr
    have h0 := h y hy0 hyv v fun b i => by rw [hym]; exact hv b i
    have := hd.unique h0
    intro b
    have h1 := (Finset.sum_eq_zero_iff_of_nonneg (fun b _ => Finset.sum_nonneg fun j _ => sq_nonneg _)).1
      this b (Finset.mem_univ b)
    funext j
    have h2 := (Finset.sum_eq_zero_iff_of_nonneg (fun j _ => sq_nonneg _)).1 h1 j (Finset.mem_univ j)
    simpa using h2
  · intro h c h0 hc v hv
    refine (hG c h0 hc v hv).congr_deriv (Finset.sum_eq_zero fun b _ => ?_)
    obtain ⟨ξ, hξ⟩ := exists_tangent k (fun t => hc t b) (hv b)
    obtain ⟨v', hv', hp⟩ := represents k hξ
    have e1 : v' = v b := by
      funext i
      have := hv' i
      simp only [toRow_ofRow] at this
      exact this.unique (hv b i)
    have h1 := hp (G b)
    rw [h0, h b, zero_dotProduct, e1] at h1
    exact h1.symm

/-- Gradient descent decreases the loss: unless the parameter is already a stationary point, every
sufficiently small learning rate gives a legal parameter with a smaller loss. -/
theorem lie_step_descends {e : Eps} (he : e.Legal) {k : Kind} {B : ℕ} {f : Tens k B → ℝ}
    {x G : Tens k B} (hx : ∀ b, RowValid k (x b)) (hG : IsGrad k f x G)
    (hs : ¬ Stationary k f x) (depth : ℕ) :
    ∃ δ > 0, ∀ lr, 0 < lr → lr < δ → ∃ y, apply e (depth + 1) true x (.add G (-lr)) = .ok y ∧
      (∀ b, RowValid k (y b)) ∧ f y < f x := by
  obtain ⟨y, hy, hy0, hyv, hd⟩ := lie_step_slope he hx hG depth
  have hpos : 0 < ∑ b, ∑ j, project k (ofRow k (x b)) (G b) j ^ 2 := by
    rcases (Finset.sum_nonneg fun b (_ : b ∈ Finset.univ) =>
      Finset.sum_nonneg fun j (_ : j ∈ Finset.univ) =>
        sq_nonneg (project k (ofRow k (x b)) (G b) j)).lt_or_eq with h | h
    · exact h
    · exfalso
      apply hs
      rw [lie_step_stationary he hx hG]
      intro b
      have h1 := (Finset.sum_eq_zero_iff_of_nonneg
        (fun b _ => Finset.sum_nonneg fun j _ => sq_nonneg _)).1 h.symm b (Finset.mem_univ b)
      funext j
      have h2 := (Finset.sum_eq_zero_iff_of_nonneg (fun j _ => sq_nonneg _)).1 h1 j
        (Finset.mem_univ j)
      simpa using h2
  have hl := hd.tendsto_slope_zero_left
  have hev := hl.eventually (lt_mem_nhds hpos)
  rw [eventually_nhdsWithin_iff, Metric.eventually_nhds_iff] at hev
  obtain ⟨δ, hδ, h⟩ := hev
  refine ⟨δ, hδ, fun lr h0 h1 => ⟨y (-lr), hy _, hyv _, ?_⟩⟩
  have h2 := h (y := -lr) (by simpa [abs_of_pos h0] using h1) (by simpa using h0)
  rw [zero_add, hy0, smul_eq_mul] at h2
  by_contra hc
  push Not at hc
  have : (-lr)⁻¹ * (f (y (-lr)) - f x) ≤ 0 :=
    mul_nonpos_of_nonpos_of_nonneg (by simpa using h0.le) (by linarith)
  linarith

/-- For vectors and points the tangent context changes nothing: the update is the usual addition. -/
theorem lie_step_vector (e : Eps) {k : Kind} (hk : k = .point2 ∨ k = .point3 ∨ ∃ n, k = .vector n)
    {B : ℕ} (x : Tens k B) (depth : ℕ) :
    (∀ u a, apply e (depth + 1) true x (.add u a) = .ok fun b i => x b i + a * u b i) ∧
    (∀ t1 t2 v, apply e (depth + 2) true x (.addcdiv t1 t2 v) =
      apply e (depth + 2) false x (.addcdiv t1 t2 v)) ∧
    (∀ t1 t2 v, apply e (depth + 2) true x (.addcmul t1 t2 v) =
      apply e (depth + 2) false x (.addcmul t1 t2 v)) := by
  have hm (u : Tens k B) (a : ℝ) : moved e x u a = fun b i => x b i + a * u b i := by
    rcases hk with rfl | rfl | ⟨n, rfl⟩ <;> rfl
  have h (u : Tens k B) (a : ℝ) (d : ℕ) : add e true x u a (d + 1) = .ok fun b i => x b i + a * u b i := by
    rw [← hm]; exact apply_add e x u a d
  refine ⟨fun u a => h u a depth, fun t1 t2 v => ?_, fun t1 t2 v => ?_⟩
  · simp only [apply, addcdiv, h, if_true, Bool.false_eq_true, if_false]
    split_ifs
    · rfl
    · congr 1; funext b i; ring
  · simp only [apply, addcmul, h, if_true, Bool.false_eq_true, if_false]
    congr 1; funext b i; ring

/-- Outside the tangent context `addcdiv_` and `addcmul_` are torch's element-wise updates, but
`add_`, which is what plain gradient descent calls, never returns: whatever the size of the stack, it
ends with a `RecursionError`. -/
theorem lie_step_recursion (e : Eps) {k : Kind} {B : ℕ} (x : Tens k B) (depth : ℕ) :
    (∀ u a, apply e depth false x (.add u a) = .error .recursion) ∧
    (∀ t1 t2 v, (∀ b i, t2 b i ≠ 0) → apply e (depth + 1) false x (.addcdiv t1 t2 v) =
      .ok fun b i => x b i + v * (t1 b i / t2 b i)) ∧
    (∀ t1 t2 v, apply e (depth + 1) false x (.addcmul t1 t2 v) =
      .ok fun b i => x b i + v * (t1 b i * t2 b i)) := by
  refine ⟨fun u a => ?_, fun t1 t2 v h => ?_, fun t1 t2 v => ?_⟩
  · induction depth with
    | zero => rfl
    | succ d ih => simpa [apply, add] using ih
  · have : ¬ ∃ b i, t2 b i = 0 := by push Not; exact h
    simp [apply, addcdiv, this]
  · simp [apply, addcmul]

/-- A differentiable loss has a gradient in the sense above: the vector of its partial
derivatives. -/
theorem isGrad_of_hasFDerivAt {k : Kind} {B : ℕ} {f : Tens k B → ℝ} {x G : Tens k B}
    (hf : ∃ L : Tens k B →L[ℝ] ℝ, HasFDerivAt f L x ∧ ∀ v, L v = ∑ b, ∑ i, G b i * v b i) :
    IsGrad k f x G := by
  obtain ⟨L, hL, hG⟩ := hf
  intro c h0 _ v hv
  rw [← hG]
  have hc : HasDerivAt c v 0 := by
    rw [hasDerivAt_pi]; intro b
    rw [hasDerivAt_pi]; exact hv b
  rw [← h0] at hL
  exact hL.comp_hasDerivAt (0 : ℝ) hc

/-! ## Non-vacuity -/

/-- The rotation by 90 degrees and the loss `2 c + 3 s`. -/
noncomputable def exRow : Tens .so2 1 := fun _ => (![0, 1] : Fin 2 → ℝ)

noncomputable def exLoss : Tens .so2 1 → ℝ := fun x => 2 * x 0 (0 : Fin 2) + 3 * x 0 (1 : Fin 2)

theorem exRow_valid : ∀ b, RowValid .so2 (exRow b) := by
  intro b
  change (0 : ℝ) ^ 2 + 1 ^ 2 = 1
  norm_num

theorem exLoss_grad : IsGrad .so2 exLoss exRow (fun _ => (![2, 3] : Fin 2 → ℝ)) := by
  intro c _ _ v hv
  have h := ((hv 0 (0 : Fin 2)).const_mul 2).fun_add ((hv 0 (1 : Fin 2)).const_mul 3)
  refine h.congr_deriv ?_
  rw [Fin.sum_univ_one]
  change _ = ∑ i : Fin 2, _
  rw [Fin.sum_univ_two]
  simp

example : ¬ Stationary .so2 exLoss exRow := by
  rw [lie_step_stationary eps64_legal exRow_valid exLoss_grad]
  intro h
  have : SO2.project ⟨0, 1⟩ ![2, 3] 0 = 0 := congrFun (h 0) (0 : Fin 1)
  norm_num [SO2.project] at this

example : ∃ δ > 0, ∀ lr, 0 < lr → lr < δ → ∃ y, apply eps64 5 true exRow
    (.add (fun _ => (![2, 3] : Fin 2 → ℝ)) (-lr)) = .ok y ∧
      (∀ b, RowValid .so2 (y b)) ∧ exLoss y < exLoss exRow := by
  refine lie_step_descends eps64_legal exRow_valid exLoss_grad (fun h => ?_) 4
  rw [lie_step_stationary eps64_legal exRow_valid exLoss_grad] at h
  have : SO2.project ⟨0, 1⟩ ![2, 3] 0 = 0 := congrFun (h 0) (0 : Fin 1)
  norm_num [SO2.project] at this

example : ∃ y, run eps64 2 true exRow
    [.add (fun _ => (![2, 3] : Fin 2 → ℝ)) 1, .addcdiv exRow (fun _ => (![4, 5] : Fin 2 → ℝ)) 2] = .ok y ∧
      ∀ b, RowValid .so2 (y b) :=
  lie_steps_stay_valid eps64_legal exRow exRow_valid _ (by
    intro o ho
    simp only [List.mem_cons, List.not_mem_nil, or_false] at ho
    rcases ho with rfl | rfl
    · trivial
    · intro b (i : Fin 2); fin_cases i <;> norm_num) 0

end Verif.Lie
