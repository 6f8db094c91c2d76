import Verif.Autodiff.Model
import Verif.Geometry.SpatialJac
import Mathlib.Tactic
import Mathlib.Analysis.Calculus.Deriv.Prod

/-!
# Jacobians of `AutoDiffCostFunction`: specification and lemmas

Specification: the user's error function acts on each batch element by `f` (`RowWise`), with the
broadcasting of tensors of batch size 1 that all torch operations have; then row `b` of the
Jacobian of variable `k` must be the derivative of `f` at the values of batch element `b` along all
curves of values of that variable (`HasJac`).
-/

namespace Verif.Autodiff
open Verif.Geometry Matrix

variable {N M dim : ℕ} {c : Fin (N + 1) → Cls} {A : Fin M → Type} [∀ j, Inhabited (A j)]

/-- All tensors have batch size `B`, or 1 for broadcasting. -/
def Bcast (B : ℕ) (x : Optim c) (a : Aux A) : Prop :=
  (∀ i, (x i).length = B ∨ (x i).length = 1) ∧ (∀ j, (a j).length = B ∨ (a j).length = 1) ∧
    ((∃ i, (x i).length = B) ∨ ∃ j, (a j).length = B)

/-- The values in batch element `b`. -/
abbrev rowOf (x : Optim c) (b : ℕ) : ∀ i, Fin (c i).d → ℝ := fun i => pick (x i) b
@[inherit_doc rowOf] abbrev auxOf (a : Aux A) (b : ℕ) : ∀ j, A j := fun j => pick (a j) b

/-- The error function `F` on tensors acts on each batch element by `f`. -/
def RowWise (F : ErrFn c A dim) (f : (∀ i, Fin (c i).d → ℝ) → (∀ j, A j) → Fin dim → ℝ) : Prop :=
  ∀ B x a, Bcast B x a →
    F x a = some ((List.range B).map fun b => f (rowOf x b) (auxOf a b))

/-- The class `cl` represents the group `G` by the tensors `tensor g`, and `project` turns a row of
Euclidean derivatives into derivatives along tangent vectors. -/
def Represents (cl : Cls) {m : ℕ} {G : Type} (E : Embedding cl.dof m G) (tensor : G → Fin cl.d → ℝ) :
    Prop :=
  ∀ (x : ℝ → G) (ξ : Fin cl.dof → ℝ), E.Tangent x ξ →
    ∃ v, VecDeriv (fun t => tensor (x t)) v ∧ ∀ g, cl.proj (tensor (x 0)) g ⬝ᵥ ξ = g ⬝ᵥ v

/-! ## Lemmas -/

omit [∀ j, Inhabited (A j)] in
theorem pick_length_one {α : Type} [Inhabited α] (r : α) (b : ℕ) : pick [r] b = r := by
  simp [pick]

theorem pick_of_lt {α : Type} [Inhabited α] {l : List α} {b : ℕ} (h : b < l.length) :
    pick l b = l[b] := by
  unfold pick
  split_ifs with h1
  · obtain rfl : b = 0 := by omega
    simp [h1]
  · simp [h]

/-- The partial derivatives of component `o` of `f` with respect to the entries of variable `k`. -/
noncomputable def grad (f : (∀ i, Fin (c i).d → ℝ) → (∀ j, A j) → Fin dim → ℝ)
    (r : ∀ i, Fin (c i).d → ℝ) (s : ∀ j, A j) (k : Fin (N + 1)) (o : Fin dim) :
    Fin (c k).d → ℝ := fun e =>
  deriv (fun t => f (Function.update r k (Function.update (r k) e (r k e + t))) s o) 0

omit [∀ j, Inhabited (A j)] in
theorem grad_curve {f : (∀ i, Fin (c i).d → ℝ) → (∀ j, A j) → Fin dim → ℝ}
    {r : ∀ i, Fin (c i).d → ℝ} {s : ∀ j, A j} {k : Fin (N + 1)} {o : Fin dim}
    (hf : DifferentiableAt ℝ (fun z => f (Function.update r k z) s o) (r k))
    {z : ℝ → Fin (c k).d → ℝ} {v : Fin (c k).d → ℝ} (h0 : z 0 = r k) (hz : VecDeriv z v) :
    HasDerivAt (fun t => f (Function.update r k (z t)) s o) (grad f r s k o ⬝ᵥ v) 0 := by
  have hL := hf.hasFDerivAt
  set L := fderiv ℝ (fun z => f (Function.update r k z) s o) (r k) with hLdef
  have hzd : HasDerivAt z v 0 := hasDerivAt_pi.mpr hz
  have h1 : HasDerivAt (fun t => f (Function.update r k (z t)) s o) (L v) 0 := by
    have := HasFDerivAt.comp_hasDerivAt (x := (0 : ℝ)) (f := z)
      (l := fun z => f (Function.update r k z) s o) (l' := L) (by rw [h0]; exact hL) hzd
    exact this
  have hg : ∀ e, grad f r s k o e = L (Pi.single e 1) := by
    intro e
    have hc : HasDerivAt (fun t : ℝ => Function.update (r k) e (r k e + t)) (Pi.single e 1) 0 := by
      rw [hasDerivAt_pi]
      intro e'
      by_cases he : e' = e
      · subst he
        simpa using (hasDerivAt_id (0 : ℝ)).const_add (r k e')
      · simpa [he] using hasDerivAt_const (0 : ℝ) (r k e')
    have h2 : HasDerivAt (fun t : ℝ => f (Function.update r k
        (Function.update (r k) e (r k e + t))) s o) (L (Pi.single e 1)) 0 := by
      have := HasFDerivAt.comp_hasDerivAt (x := (0 : ℝ))
        (f := fun t : ℝ => Function.update (r k) e (r k e + t))
        (l := fun z => f (Function.update r k z) s o) (l' := L) (by simpa using hL) hc
      exact this
    exact h2.deriv
  refine h1.congr_deriv ?_
  have hv : v = ∑ e, v e • (Pi.single e (1 : ℝ) : Fin (c k).d → ℝ) := by
    ext i
    simp [Finset.sum_apply, Pi.single_apply]
  conv_lhs => rw [hv, map_sum]
  simp only [dotProduct, hg]
  refine Finset.sum_congr rfl fun e _ => ?_
  rw [map_smul, smul_eq_mul, mul_comm]

omit [∀ j, Inhabited (A j)] in
theorem pert_length {d : ℕ} (l : List (Fin d → ℝ)) (b : ℕ) (e : Fin d) (t : ℝ) :
    (pert l b e t).length = l.length := by
  simp [pert]

omit [∀ j, Inhabited (A j)] in
theorem Bcast.pert {B : ℕ} {x : Optim c} {a : Aux A} (h : Bcast B x a) (k : Fin (N + 1)) (b : ℕ)
    (e : Fin (c k).d) (t : ℝ) : Bcast B (Function.update x k (pert (x k) b e t)) a := by
  have hl : ∀ i, (Function.update x k (Autodiff.pert (x k) b e t) i).length = (x i).length := by
    intro i
    by_cases hi : i = k
    · subst hi; simp [pert_length]
    · simp [hi]
  unfold Bcast
  simp only [hl]
  exact h

/-- The derivative that the code takes is the partial derivative of `f`, if batch element `b'` of
variable `k` is the one used in row `b`. -/
theorem rawJac_eq {F : ErrFn c A dim} {f : (∀ i, Fin (c i).d → ℝ) → (∀ j, A j) → Fin dim → ℝ}
    (hF : RowWise F f) {B : ℕ} {x : Optim c} {a : Aux A} (h : Bcast B x a) {k : Fin (N + 1)}
    {b b' : ℕ} (hb : b < B) (hb' : b' < (x k).length) (hbb : b' = b ∨ (x k).length = 1) (o : Fin dim)
    (e : Fin (c k).d) :
    rawJac F x a k b o b' e = grad f (rowOf x b) (auxOf a b) k o e := by
  unfold rawJac grad
  congr 1
  ext t
  rw [hF B _ a (h.pert k b' e t)]
  have hrow : rowOf (Function.update x k (pert (x k) b' e t)) b
      = Function.update (rowOf x b) k (Function.update (rowOf x b k) e (rowOf x b k e + t)) := by
    funext i
    by_cases hi : i = k
    · subst hi
      simp only [rowOf, Function.update_self]
      rcases hbb with rfl | h1
      · rw [pick_of_lt (by rw [pert_length]; exact hb'), pick_of_lt hb']
        simp [pert]
      · obtain rfl : b' = 0 := by omega
        have hp : (pert (x i) 0 e t).length = 1 := by rw [pert_length]; exact h1
        simp only [pick, hp, h1, if_true]
        obtain ⟨r, hr⟩ := List.length_eq_one_iff.mp h1
        rw [hr]
        simp [pert]
    · simp [rowOf, hi]
  simp only [Option.getD_some]
  have hg : ∀ g : ℕ → Fin dim → ℝ, ((List.range B).map g).getD b 0 = g b := by
    intro g
    simp [List.getD, hb]
  rw [hg, hrow]

/-- The Jacobians with respect to the tensors that all three modes should compute. -/
noncomputable def fullSpec (f : (∀ i, Fin (c i).d → ℝ) → (∀ j, A j) → Fin dim → ℝ) (B : ℕ)
    (x : Optim c) (a : Aux A) : Full c dim := fun k =>
  (List.range B).map fun b => Matrix.of fun o => grad f (rowOf x b) (auxOf a b) k o

theorem rowOf_single (r : ∀ i, Fin (c i).d → ℝ) (b : ℕ) :
    rowOf (c := c) (fun i => [r i]) b = r := by
  funext i
  exact pick_length_one _ _

omit c in
theorem auxOf_single (s : ∀ j, A j) (b : ℕ) : auxOf (A := A) (fun j => [s j]) b = s := by
  funext j
  exact pick_length_one _ _

theorem denseFull_eq {F : ErrFn c A dim} {f} (hF : RowWise F f) {B : ℕ} {x : Optim c} {a : Aux A}
    (h : Bcast B x a) (hx : ∀ i, (x i).length = B) :
    denseFull F x a ((List.range B).map fun b => f (rowOf x b) (auxOf a b))
      = some (fullSpec f B x a) := by
  unfold denseFull
  rw [if_pos (by intro k; simp [hx])]
  congr 1
  funext k
  simp only [List.length_map, List.length_range, fullSpec]
  refine List.map_congr_left fun b hb => ?_
  have hb : b < B := by simpa using hb
  ext o e
  exact rawJac_eq hF h hb (by rw [hx]; exact hb) (Or.inl rfl) o e

theorem slice_of_lt {α : Type} {l : List α} {n : ℕ} (h : n < l.length) : slice l n = [l[n]] := by
  unfold slice
  rw [List.drop_eq_getElem_cons h, List.take_succ_cons, List.take_zero]

theorem slice_of_le {α : Type} {l : List α} {n : ℕ} (h : l.length ≤ n) : slice l n = [] := by
  unfold slice
  rw [List.drop_eq_nil_of_le h]
  simp

omit [∀ j, Inhabited (A j)] in
theorem flatMap_single {α β : Type} (l : List α) (g : α → β) :
    (l.flatMap fun n => [g n]) = l.map g := by
  induction l with
  | nil => rfl
  | cons a l ih => simp [ih]

theorem loopFull_eq {F : ErrFn c A dim} {f} (hF : RowWise F f) {B : ℕ} (hB : 0 < B) {x : Optim c}
    {a : Aux A} (hx : ∀ i, (x i).length = B) (ha : ∀ j, (a j).length = B) :
    loopFull F x a = some (fullSpec f B x a) := by
  have hxs : ∀ n, n < B → (fun i => slice (x i) n) = fun i => [rowOf x n i] := by
    intro n hn
    funext i
    rw [slice_of_lt (by rw [hx]; exact hn), rowOf, pick_of_lt (by rw [hx]; exact hn)]
  have has : ∀ n, n < B → (fun j => slice (a j) n) = fun j => [auxOf a n j] := by
    intro n hn
    funext j
    rw [slice_of_lt (by rw [ha]; exact hn), auxOf, pick_of_lt (by rw [ha]; exact hn)]
  have hbc : ∀ n, Bcast 1 (c := c) (A := A) (fun i => [rowOf x n i]) (fun j => [auxOf a n j]) :=
    fun n => ⟨by simp, by simp, Or.inl ⟨0, rfl⟩⟩
  have hFn : ∀ n, n < B → F (fun i => [rowOf x n i]) (fun j => [auxOf a n j])
      = some [f (rowOf x n) (auxOf a n)] := by
    intro n hn
    rw [hF 1 _ _ (hbc n)]
    simp only [List.range_one, List.map_cons, List.map_nil, rowOf_single, auxOf_single]
  unfold loopFull
  simp only [hx]
  rw [if_pos]
  · congr 1
    funext k
    simp only [fullSpec]
    rw [← flatMap_single]
    refine List.flatMap_congr fun n hn => ?_
    have hn : n < B := by simpa using hn
    rw [hxs n hn, has n hn, hFn n hn]
    simp only [Option.getD_some, List.length_singleton, List.range_one, List.map_cons, List.map_nil]
    congr 1
    ext o e
    have := rawJac_eq hF (hbc n) (k := k) (b := 0) (b' := 0) (by omega) (by simp) (Or.inl rfl) o e
    rw [Matrix.of_apply, this, rowOf_single, auxOf_single]
    rfl
  · refine ⟨hB, fun n hn => ⟨?_, fun k => ?_⟩⟩
    · rw [hxs n hn, has n hn, hFn n hn]; rfl
    · have := congrFun (hxs n hn) k
      rw [this]; simp

omit [∀ j, Inhabited (A j)] in
theorem foldr_max_eq {l : List ℕ} {B : ℕ} (h : ∀ s ∈ l, s ≤ B) (hB : B ∈ l) : l.foldr max 0 = B := by
  induction l with
  | nil => simp at hB
  | cons s l ih =>
    rw [List.foldr_cons]
    have h1 : l.foldr max 0 ≤ B := by
      clear ih hB
      have h' : ∀ t ∈ l, t ≤ B := fun t ht => h t (List.mem_cons_of_mem _ ht)
      clear h
      induction l with
      | nil => simp
      | cons t l ih =>
        rw [List.foldr_cons]
        exact max_le (h' t (by simp)) (ih fun u hu => h' u (List.mem_cons_of_mem _ hu))
    rcases List.mem_cons.mp hB with rfl | hB
    · exact max_eq_left h1
    · rw [ih (fun t ht => h t (List.mem_cons_of_mem _ ht)) hB]
      exact max_eq_right (h s (by simp))

omit [∀ j, Inhabited (A j)] in
theorem foldr_min_eq {l : List ℕ} {B : ℕ} (hB : 1 ≤ B) (h : ∀ s ∈ l, 1 ≤ s) (h1 : 1 ∈ l) :
    l.foldr min B = 1 := by
  induction l with
  | nil => simp at h1
  | cons s l ih =>
    rw [List.foldr_cons]
    have h2 : 1 ≤ l.foldr min B := by
      have h' : ∀ t ∈ l, 1 ≤ t := fun t ht => h t (List.mem_cons_of_mem _ ht)
      clear ih h1 h
      induction l with
      | nil => simpa using hB
      | cons t l ih =>
        rw [List.foldr_cons]
        exact le_min (h' t (by simp)) (ih fun u hu => h' u (List.mem_cons_of_mem _ hu))
    rcases List.mem_cons.mp h1 with rfl | h1
    · exact min_eq_left h2
    · rw [ih (fun t ht => h t (List.mem_cons_of_mem _ ht)) h1]
      exact min_eq_right (h s (by simp))

omit [∀ j, Inhabited (A j)] in
theorem Bcast.sizes {B : ℕ} {x : Optim c} {a : Aux A} (h : Bcast B x a) :
    (∀ s ∈ Autodiff.sizes x a, s = B ∨ s = 1) ∧ B ∈ Autodiff.sizes x a := by
  unfold Autodiff.sizes
  constructor
  · intro s hs
    rcases List.mem_append.mp hs with hs | hs
    · obtain ⟨i, rfl⟩ := (List.mem_ofFn' _ _).mp hs
      exact h.1 i
    · obtain ⟨j, rfl⟩ := (List.mem_ofFn' _ _).mp hs
      exact h.2.1 j
  · rcases h.2.2 with ⟨i, hi⟩ | ⟨j, hj⟩
    · exact List.mem_append_left _ ((List.mem_ofFn' _ _).mpr ⟨i, hi⟩)
    · exact List.mem_append_right _ ((List.mem_ofFn' _ _).mpr ⟨j, hj⟩)

omit [∀ j, Inhabited (A j)] in
theorem Bcast.sizesOk {B : ℕ} (hB : 0 < B) {x : Optim c} {a : Aux A} (h : Bcast B x a) :
    (Autodiff.sizes x a).foldr max 0 = B ∧ ((Autodiff.sizes x a).toFinset.card = 1 ∨
      ((Autodiff.sizes x a).toFinset.card = 2 ∧
        (Autodiff.sizes x a).foldr min ((Autodiff.sizes x a).foldr max 0) = 1)) := by
  obtain ⟨h1, h2⟩ := h.sizes
  have hmax := foldr_max_eq (fun s hs => by rcases h1 s hs with rfl | rfl <;> omega) h2
  refine ⟨hmax, ?_⟩
  by_cases hone : B ≠ 1 ∧ 1 ∈ Autodiff.sizes x a
  · right
    have hset : (Autodiff.sizes x a).toFinset = {B, 1} := by
      ext s
      simp only [List.mem_toFinset, Finset.mem_insert, Finset.mem_singleton]
      exact ⟨h1 s, by rintro (rfl | rfl); exacts [h2, hone.2]⟩
    rw [hset, hmax]
    exact ⟨Finset.card_pair hone.1,
      foldr_min_eq hB (fun s hs => by rcases h1 s hs with rfl | rfl <;> omega) hone.2⟩
  · left
    have hset : (Autodiff.sizes x a).toFinset = {B} := by
      ext s
      simp only [List.mem_toFinset, Finset.mem_singleton]
      refine ⟨fun hs => ?_, by rintro rfl; exact h2⟩
      rcases h1 s hs with h3 | h3
      · exact h3
      · by_contra hne
        subst h3
        exact hone ⟨fun hB1 => hne hB1.symm, hs⟩
    rw [hset, Finset.card_singleton]

theorem vmapFull_eq {F : ErrFn c A dim} {f} (hF : RowWise F f) {B : ℕ} (hB : 0 < B) {x : Optim c}
    {a : Aux A} (h : Bcast B x a) : vmapFull F x a = some (fullSpec f B x a) := by
  obtain ⟨hmax, hok⟩ := h.sizesOk hB
  have hbc : ∀ n, Bcast 1 (c := c) (A := A) (fun i => [rowOf x n i]) (fun j => [auxOf a n j]) :=
    fun n => ⟨by simp, by simp, Or.inl ⟨0, rfl⟩⟩
  have hFn : ∀ n, F (fun i => [rowOf x n i]) (fun j => [auxOf a n j])
      = some [f (rowOf x n) (auxOf a n)] := by
    intro n
    rw [hF 1 _ _ (hbc n)]
    simp only [List.range_one, List.map_cons, List.map_nil, rowOf_single, auxOf_single]
  unfold vmapFull
  simp only
  rw [if_pos hok, hmax, if_pos]
  · congr 1
    funext k
    simp only [fullSpec]
    refine List.map_congr_left fun b hb => ?_
    ext o e
    have := rawJac_eq hF (hbc b) (k := k) (b := 0) (b' := 0) (by omega) (by simp) (Or.inl rfl) o e
    rw [Matrix.of_apply]
    refine this.trans ?_
    rw [rowOf_single, auxOf_single]
    rfl
  · intro b hb
    exact ⟨_, _, hFn b⟩

end Verif.Autodiff
