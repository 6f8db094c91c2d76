import Verif.Autodiff.Lemmas

/-!
# Jacobians of `AutoDiffCostFunction` (C77)

The specification is at the head of `Verif.Autodiff.Lemmas` (`Bcast`, `rowOf`, `RowWise`,
`Represents`) and in `Verif.Geometry.Spec` (`HasJac`).
-/

namespace Verif.Autodiff
open Verif.Geometry Matrix

section Main
variable {N M dim : ℕ} {c : Fin (N + 1) → Cls} {A : Fin M → Type} [∀ j, Inhabited (A j)]

theorem broadcast2_eq {α β γ : Type} [Inhabited α] (h : α → β → γ) {B : ℕ} (hB : 0 < B) {l : List α}
    (hl : l.length = B ∨ l.length = 1) (g : ℕ → β) :
    broadcast2 h l ((List.range B).map g) = some ((List.range B).map fun b => h (pick l b) (g b)) := by
  match l, hl with
  | [], hl => simp at hl; omega
  | [r], _ =>
    simp [broadcast2, pick_length_one]
  | r :: s :: l, hl =>
    have hl : (r :: s :: l).length = B := by
      rcases hl with h | h
      · exact h
      · simp at h
    obtain ⟨B, rfl⟩ : ∃ B', B = B' + 2 := ⟨l.length, by simpa using hl.symm⟩
    have e : (List.range (B + 2)).map g
        = g 0 :: g 1 :: (List.range B).map (fun b => g (b + 2)) := by
      rw [List.range_succ_eq_map, List.range_succ_eq_map]
      simp [Function.comp_def]
    rw [e]
    simp only [broadcast2]
    rw [if_pos (by simpa using hl), ← e]
    congr 1
    refine List.ext_getElem (by simp [hl]) fun i h1 h2 => ?_
    have hi : i < (r :: s :: l).length := by
      simp only [List.length_zipWith] at h1
      omega
    simp only [List.getElem_zipWith, List.getElem_map, List.getElem_range]
    rw [pick_of_lt hi]

/-- `project` of a class that clones does not look at the tensor (all classes here). -/
def Cls.Ok (cl : Cls) : Prop := cl.clones = true → ∀ r s g, cl.proj r g = cl.proj s g

theorem project_eq {cl : Cls} (hc : cl.Ok) {B : ℕ} (hB : 0 < B) {l : List (Fin cl.d → ℝ)}
    (hl : l.length = B ∨ l.length = 1) (g : ℕ → Matrix (Fin dim) (Fin cl.d) ℝ) :
    project cl l ((List.range B).map g)
      = some ((List.range B).map fun b => Matrix.of fun o => cl.proj (pick l b) (g b o)) := by
  unfold project
  split_ifs with h
  · rw [List.map_map]
    congr 1
    refine List.map_congr_left fun b _ => ?_
    simp only [Function.comp_apply]
    congr 1
    funext o
    exact hc h _ _ _
  · exact broadcast2_eq _ hB hl g

/-- The batch sizes each mode is meant for: `VMAP` broadcasts all variables, `DENSE` the auxiliary
ones, `LOOP_BATCH` none. -/
def ModeOk (B : ℕ) (x : Optim c) (a : Aux A) : Mode → Prop
  | .vmap => Bcast B x a
  | .dense => (∀ i, (x i).length = B) ∧ ∀ j, (a j).length = B ∨ (a j).length = 1
  | .loopBatch => (∀ i, (x i).length = B) ∧ ∀ j, (a j).length = B

/-- For an error function that acts on every batch element by `f`, `jacobians()` succeeds in all
three modes; the error is that of `f` for every batch element, and row `b` of the Jacobian of
variable `k` is the derivative of `f` with respect to this variable at the values of batch element
`b`, along all curves in the group of the variable. -/
theorem autodiff_jac_partial {F : ErrFn c A dim}
    {f : (∀ i, Fin (c i).d → ℝ) → (∀ j, A j) → Fin dim → ℝ} (hF : RowWise F f)
    (hc : ∀ k, (c k).Ok) {B : ℕ} (hB : 0 < B) {x : Optim c} {a : Aux A} {mode : Mode}
    (hm : ModeOk B x a mode) :
    ∃ J, jacobians mode F x a
        = some (J, (List.range B).map fun b => f (rowOf x b) (auxOf a b)) ∧
      ∀ k, (J k).length = B ∧ ∀ b < B, ∀ {m : ℕ} {G : Type} (E : Embedding (c k).dof m G)
        (tensor : G → Fin (c k).d → ℝ), Represents (c k) E tensor →
        ∀ g, tensor g = rowOf x b k →
        (∀ o, DifferentiableAt ℝ (fun z => f (Function.update (rowOf x b) k z) (auxOf a b) o)
          (rowOf x b k)) →
        E.HasJac (fun q => f (Function.update (rowOf x b) k (tensor q)) (auxOf a b)) g
          ((J k).getD b 0) := by
  have hbc : Bcast B x a := by
    cases mode
    · exact ⟨fun i => Or.inl (hm.1 i), hm.2, Or.inl ⟨0, hm.1 0⟩⟩
    · exact ⟨fun i => Or.inl (hm.1 i), fun j => Or.inl (hm.2 j), Or.inl ⟨0, hm.1 0⟩⟩
    · exact hm
  have hp : ∀ k, project (c k) (x k) (fullSpec f B x a k)
      = some ((List.range B).map fun b => Matrix.of fun o =>
          (c k).proj (rowOf x b k) (grad f (rowOf x b) (auxOf a b) k o)) :=
    fun k => project_eq (hc k) hB (hbc.1 k) _
  refine ⟨fun k => (List.range B).map fun b => Matrix.of fun o =>
          (c k).proj (rowOf x b k) (grad f (rowOf x b) (auxOf a b) k o), ?_, fun k => ⟨by simp, ?_⟩⟩
  · unfold jacobians
    rw [hF B x a hbc]
    have hfin : (if ∀ k, (project (c k) (x k) (fullSpec f B x a k)).isSome then
        some ((fun k => (project (c k) (x k) (fullSpec f B x a k)).getD []),
          (List.range B).map fun b => f (rowOf x b) (auxOf a b)) else none)
        = some ((fun k => (List.range B).map fun b => Matrix.of fun o =>
          (c k).proj (rowOf x b k) (grad f (rowOf x b) (auxOf a b) k o)),
          (List.range B).map fun b => f (rowOf x b) (auxOf a b)) := by
      rw [if_pos (fun k => by rw [hp k]; rfl)]
      congr 2
      funext k
      rw [hp k]
      rfl
    cases mode
    · simp only [denseFull_eq hF hbc hm.1]; exact hfin
    · simp only [loopFull_eq hF hB hm.1 hm.2]; exact hfin
    · simp only [vmapFull_eq hF hB hbc]; exact hfin
  · intro b hb m G E tensor hrep g hg hd y ξ hy ht o
    obtain ⟨v, hv, hproj⟩ := hrep y ξ ht
    have h0 : tensor (y 0) = rowOf x b k := by rw [hy, hg]
    have := grad_curve (hd o) h0 hv
    refine this.congr_deriv ?_
    rw [← hproj, h0]
    simp [List.getD, hb, Matrix.mulVec]

/-- The three modes return the same wherever all of them are meant to be used. -/
theorem autodiff_modes_agree {F : ErrFn c A dim}
    {f : (∀ i, Fin (c i).d → ℝ) → (∀ j, A j) → Fin dim → ℝ} (hF : RowWise F f) {B : ℕ} (hB : 0 < B)
    {x : Optim c} {a : Aux A} (hx : ∀ i, (x i).length = B) (ha : ∀ j, (a j).length = B)
    (mode mode' : Mode) : jacobians mode F x a = jacobians mode' F x a := by
  have hbc : Bcast B x a := ⟨fun i => Or.inl (hx i), fun j => Or.inl (ha j), Or.inl ⟨0, hx 0⟩⟩
  unfold jacobians
  rw [hF B x a hbc]
  have h1 := denseFull_eq hF hbc hx
  have h2 := loopFull_eq hF hB hx ha
  have h3 := vmapFull_eq hF hB hbc
  cases mode <;> cases mode' <;> simp only [h1, h2, h3]

/-! ## Broadcasting in the modes `DENSE` and `LOOP_BATCH` -/

/-- **A defect.**  In mode `DENSE` an optimization variable of batch size 1 is not broadcast:
`jacobians()` raises although `error()` works. -/
theorem autodiff_dense_raises {F : ErrFn c A dim}
    {f : (∀ i, Fin (c i).d → ℝ) → (∀ j, A j) → Fin dim → ℝ} (hF : RowWise F f) {B : ℕ} (hB : 1 < B)
    {x : Optim c} {a : Aux A} (h : Bcast B x a) {k : Fin (N + 1)} (hk : (x k).length = 1) :
    (F x a).isSome ∧ jacobians .dense F x a = none := by
  rw [hF B x a h]
  refine ⟨rfl, ?_⟩
  unfold jacobians
  rw [hF B x a h]
  simp only [denseFull]
  rw [if_neg]
  intro hall
  have := hall k
  rw [hk] at this
  simp at this
  omega

/-- **A defect.**  In mode `LOOP_BATCH` an auxiliary variable of batch size 1 is not broadcast, and
no exception is raised: the error has `B` rows, but the Jacobian of every `Vector` variable has a
single one, that of batch element 0 (which is then broadcast to the whole batch). -/
theorem autodiff_loop_short {F : ErrFn c A dim}
    {f : (∀ i, Fin (c i).d → ℝ) → (∀ j, A j) → Fin dim → ℝ} (hF : RowWise F f) {B : ℕ} (hB : 1 < B)
    {x : Optim c} {a : Aux A} (hx : ∀ i, (x i).length = B)
    (ha : ∀ j, (a j).length = B ∨ (a j).length = 1) {j : Fin M} (hj : (a j).length = 1)
    (hv : ∀ k, (c k).clones = true) :
    ∃ J, jacobians .loopBatch F x a
        = some (J, (List.range B).map fun b => f (rowOf x b) (auxOf a b)) ∧
      ∀ k, J k = [Matrix.of fun o => (c k).proj 0 (grad f (rowOf x 0) (auxOf a 0) k o)] := by
  have hbc : Bcast B x a := ⟨fun i => Or.inl (hx i), ha, Or.inl ⟨0, hx 0⟩⟩
  have hxs : ∀ n, n < B → (fun i => slice (x i) n) = fun i => [rowOf x n i] := by
    intro n hn
    funext i
    rw [slice_of_lt (by rw [hx]; exact hn), rowOf, pick_of_lt (by rw [hx]; exact hn)]
  have has : (fun j => slice (a j) 0) = fun j => [auxOf a 0 j] := by
    funext j
    have hl : 0 < (a j).length := by rcases ha j with h | h <;> omega
    rw [slice_of_lt hl, auxOf, pick_of_lt hl]
  have hb0 : Bcast 1 (c := c) (A := A) (fun i => [rowOf x 0 i]) (fun j => [auxOf a 0 j]) :=
    ⟨by simp, by simp, Or.inl ⟨0, rfl⟩⟩
  have hF0 : F (fun i => [rowOf x 0 i]) (fun j => [auxOf a 0 j])
      = some [f (rowOf x 0) (auxOf a 0)] := by
    rw [hF 1 _ _ hb0]
    simp only [List.range_one, List.map_cons, List.map_nil, rowOf_single, auxOf_single]
  have hFn : ∀ n, 0 < n → n < B → F (fun i => [rowOf x n i]) (fun j => slice (a j) n) = some [] := by
    intro n h0 hn
    rw [hF 0]
    · rfl
    · refine ⟨fun i => Or.inr rfl, fun i => ?_, Or.inr ⟨j, ?_⟩⟩
      · show (slice (a i) n).length = _ ∨ (slice (a i) n).length = _
        rcases ha i with h | h
        · right; rw [slice_of_lt (by omega)]; rfl
        · left; rw [slice_of_le (by omega)]; rfl
      · show (slice (a j) n).length = _
        rw [slice_of_le (by omega)]; rfl
  have hloop : loopFull F x a
      = some fun k => [Matrix.of fun o => grad f (rowOf x 0) (auxOf a 0) k o] := by
    unfold loopFull
    simp only [hx]
    rw [if_pos]
    · congr 1
      funext k
      obtain ⟨B, rfl⟩ : ∃ B', B = B' + 1 := ⟨B - 1, by omega⟩
      rw [List.range_succ_eq_map, List.flatMap_cons, List.flatMap_map]
      have hz : ((List.range B).flatMap fun n => (List.range ((F (fun i => slice (x i) (n + 1))
          (fun j => slice (a j) (n + 1))).getD []).length).map fun b =>
          (Matrix.of fun o e => rawJac F (fun i => slice (x i) (n + 1))
            (fun j => slice (a j) (n + 1)) k b o 0 e : Matrix (Fin dim) (Fin (c k).d) ℝ)) = [] := by
        rw [List.flatMap_eq_nil_iff]
        intro n hn
        have hn : n < B := by simpa using hn
        rw [hxs (n + 1) (by omega), hFn (n + 1) (by omega) (by omega)]
        rfl
      simp only [Nat.succ_eq_add_one] at hz ⊢
      rw [hz, List.append_nil, hxs 0 (by omega), has, hF0]
      simp only [Option.getD_some, List.length_singleton, List.range_one, List.map_cons,
        List.map_nil]
      congr 1
      ext o e
      have := rawJac_eq hF hb0 (k := k) (b := 0) (b' := 0) (by omega) (by simp) (Or.inl rfl) o e
      rw [Matrix.of_apply, this, rowOf_single, auxOf_single]
      rfl
    · refine ⟨by omega, fun n hn => ⟨?_, fun k => ?_⟩⟩
      · rw [hxs n hn]
        rcases Nat.eq_zero_or_pos n with rfl | h0
        · rw [has, hF0]; rfl
        · rw [hFn n h0 hn]; rfl
      · have := congrFun (hxs n hn) k
        rw [this]; simp
  have hp : ∀ k, project (c k) (x k) [Matrix.of fun o => grad f (rowOf x 0) (auxOf a 0) k o]
      = some [Matrix.of fun o => (c k).proj 0 (grad f (rowOf x 0) (auxOf a 0) k o)] := by
    intro k
    unfold project
    rw [if_pos (hv k)]
    rfl
  refine ⟨fun k => [Matrix.of fun o => (c k).proj 0 (grad f (rowOf x 0) (auxOf a 0) k o)], ?_,
    fun k => rfl⟩
  unfold jacobians
  rw [hF B x a hbc]
  simp only [hloop]
  rw [if_pos (fun k => by rw [hp k]; rfl)]
  congr 2
  funext k
  rw [hp k]
  rfl

/-- **A defect.**  In mode `LOOP_BATCH` an optimization variable of batch size 1 makes
`jacobians()` raise if the first one has more elements. -/
theorem autodiff_loop_raises {F : ErrFn c A dim} {x : Optim c} {a : Aux A} {k : Fin (N + 1)}
    (h0 : 1 < (x 0).length) (hk : (x k).length = 1) : jacobians .loopBatch F x a = none := by
  have hl : loopFull F x a = none := by
    unfold loopFull
    simp only
    rw [if_neg]
    rintro ⟨-, h⟩
    exact (h 1 h0).2 k (slice_of_le (by omega))
  unfold jacobians
  simp only [hl]
  cases F x a <;> rfl

end Main

/-! ## The classes represent their groups -/

theorem vec_represents (n : ℕ) : Represents (vecCls n) (Vec.emb n) (fun g => g) := by
  intro x ξ ht
  refine ⟨ξ, fun i => ?_, fun g => rfl⟩
  have h := ht.2 i.castSucc (Fin.last n)
  change HasDerivAt (fun t => ((1 : Matrix (Fin (n + 1)) (Fin (n + 1)) ℝ) + Vec.hat (x t))
    i.castSucc (Fin.last n)) (((1 + Vec.hat (x 0)) * Vec.hat ξ) i.castSucc (Fin.last n)) 0 at h
  rw [Matrix.add_mul, Vec.hat_mul_hat, Matrix.one_mul, add_zero] at h
  simp only [Matrix.add_apply] at h
  have h' := h.sub_const ((1 : Matrix (Fin (n + 1)) (Fin (n + 1)) ℝ) i.castSucc (Fin.last n))
  refine (h'.congr_deriv ?_).congr_of_eventuallyEq (Filter.Eventually.of_forall fun t => ?_)
  · simp [Vec.hat]
  · simp [Vec.hat]

theorem so2_represents : Represents so2Cls SO2.emb (fun g : SO2 => ![g.c, g.s]) := by
  intro x (ξ : Fin 1 → ℝ) ht
  obtain ⟨hc, hs⟩ := SO2.tangent_components ht
  have hv : VecDeriv (fun t => ![(x t).c, (x t).s]) ![-((x 0).s * ξ 0), (x 0).c * ξ 0] := by
    intro i; fin_cases i
    · exact hc
    · exact hs
  refine ⟨_, hv, fun g => ?_⟩
  have := planar_project.1 x ξ g _ ht hv
  exact this

theorem se2_represents : Represents se2Cls SE2.emb (fun g : SE2 => ![g.x, g.y, g.c, g.s]) := by
  intro x (ξ : Fin 3 → ℝ) ht
  obtain ⟨hc, hs, hX, hY⟩ := SE2.tangent_components ht
  have hv : VecDeriv (fun t => ![(x t).x, (x t).y, (x t).c, (x t).s])
      ![(x 0).c * ξ 0 - (x 0).s * ξ 1, (x 0).s * ξ 0 + (x 0).c * ξ 1,
        -((x 0).s * ξ 2), (x 0).c * ξ 2] := by
    intro i; fin_cases i
    · exact hX
    · exact hY
    · exact hc
    · exact hs
  refine ⟨_, hv, fun g => ?_⟩
  exact planar_project.2 x ξ g _ ht hv

theorem so3_represents : Represents so3Cls SO3.emb
    (fun R : M3 => ![R 0 0, R 0 1, R 0 2, R 1 0, R 1 1, R 1 2, R 2 0, R 2 1, R 2 2]) := by
  intro x (ξ : Fin 3 → ℝ) ht
  obtain ⟨-, hd⟩ := ht
  set D := x 0 * SO3.hat ξ with hD
  have hd : MatDeriv x D := hd
  refine ⟨![D 0 0, D 0 1, D 0 2, D 1 0, D 1 1, D 1 2, D 2 0, D 2 1, D 2 2], fun i => ?_,
    fun (g : Fin 9 → ℝ) => ?_⟩
  · fin_cases i
    · exact hd 0 0
    · exact hd 0 1
    · exact hd 0 2
    · exact hd 1 0
    · exact hd 1 1
    · exact hd 1 2
    · exact hd 2 0
    · exact hd 2 1
    · exact hd 2 2
  · have h1 : mat33 ![(x 0) 0 0, (x 0) 0 1, (x 0) 0 2, (x 0) 1 0, (x 0) 1 1, (x 0) 1 2,
        (x 0) 2 0, (x 0) 2 1, (x 0) 2 2] = x 0 := by
      ext i j; fin_cases i <;> fin_cases j <;> rfl
    simp only [so3Cls, h1, hD]
    simp [SO3.leftProject, SO3.leftAct, SO3.project, dotProduct, Fin.sum_univ_succ, Matrix.mul_apply,
      SO3.hat, mat33]
    ring

theorem se3_represents : Represents se3Cls SE3.emb
    (fun g : SE3 => ![g.R 0 0, g.R 0 1, g.R 0 2, g.t 0, g.R 1 0, g.R 1 1, g.R 1 2, g.t 1,
      g.R 2 0, g.R 2 1, g.R 2 2, g.t 2]) := by
  intro x (ξ : Fin 6 → ℝ) ht
  obtain ⟨-, hd⟩ := ht
  set D := SE3.toMatrix (x 0) * SE3.hat ξ with hD
  have hd : MatDeriv (fun t => SE3.toMatrix (x t)) D := hd
  refine ⟨![D 0 0, D 0 1, D 0 2, D 0 3, D 1 0, D 1 1, D 1 2, D 1 3, D 2 0, D 2 1, D 2 2, D 2 3],
    fun i => ?_, fun (g : Fin 12 → ℝ) => ?_⟩
  · fin_cases i
    · exact hd 0 0
    · exact hd 0 1
    · exact hd 0 2
    · exact hd 0 3
    · exact hd 1 0
    · exact hd 1 1
    · exact hd 1 2
    · exact hd 1 3
    · exact hd 2 0
    · exact hd 2 1
    · exact hd 2 2
    · exact hd 2 3
  · have h1 : mat34 ![(x 0).R 0 0, (x 0).R 0 1, (x 0).R 0 2, (x 0).t 0, (x 0).R 1 0, (x 0).R 1 1,
        (x 0).R 1 2, (x 0).t 1, (x 0).R 2 0, (x 0).R 2 1, (x 0).R 2 2, (x 0).t 2] = x 0 := by
      rcases x 0 with ⟨R, t⟩
      simp only [mat34, SE3.mk.injEq]
      constructor
      · ext i j; fin_cases i <;> fin_cases j <;> rfl
      · ext i; fin_cases i <;> rfl
    simp only [se3Cls, h1, hD]
    simp [SE3.leftProject, SE3.project, SE3.inverse, SE3.join, SO3.project, SE3.toMatrix, SE3.hat,
      SE3.hom, SE3.lin, SE3.ang, SO3.hat, mat34, dotProduct, Fin.sum_univ_succ, Matrix.mul_apply,
      Matrix.mulVec]
    ring

theorem classes_ok : (∀ n, (vecCls n).Ok) ∧ so2Cls.Ok ∧ se2Cls.Ok ∧ so3Cls.Ok ∧ se3Cls.Ok :=
  ⟨fun _ _ _ _ _ => rfl, fun h => by simp at h, fun h => by simp at h, fun h => by simp at h,
    fun h => by simp at h⟩

/-! ## The hypotheses can be met -/

section Example
variable {N M dim : ℕ} {c : Fin (N + 1) → Cls} {A : Fin M → Type}

theorem Bcast.unique {B B' : ℕ} {x : Optim c} {a : Aux A} (h : Bcast B x a) (h' : Bcast B' x a) :
    B = B' := by
  have key : ∀ {C C' : ℕ}, Bcast C x a → Bcast C' x a → C = C' ∨ C = 1 := by
    intro C C' h h'
    rcases h.2.2 with ⟨i, hi⟩ | ⟨j, hj⟩
    · rw [← hi]; exact h'.1 i
    · rw [← hj]; exact h'.2.1 j
  rcases key h h' with h1 | h1
  · exact h1
  · rcases key h' h with h2 | h2
    · exact h2.symm
    · rw [h1, h2]

/-- The error function on tensors that applies `f` to every batch element. -/
noncomputable def liftErr [∀ j, Inhabited (A j)]
    (f : (∀ i, Fin (c i).d → ℝ) → (∀ j, A j) → Fin dim → ℝ) : ErrFn c A dim :=
  open Classical in
  fun x a => if h : ∃ B, Bcast B x a then
    some ((List.range h.choose).map fun b => f (rowOf x b) (auxOf a b)) else none

theorem liftErr_rowWise [∀ j, Inhabited (A j)]
    (f : (∀ i, Fin (c i).d → ℝ) → (∀ j, A j) → Fin dim → ℝ) : RowWise (liftErr f) f := by
  intro B x a h
  have he : ∃ B, Bcast B x a := ⟨B, h⟩
  simp only [liftErr, dif_pos he]
  rw [he.choose_spec.unique h]

/-- The error `a * x ^ 2`, with `x` a `Vector` of one entry. -/
def exF : (∀ _ : Fin 1, Fin (vecCls 1).d → ℝ) → (Fin 1 → ℝ) → Fin 1 → ℝ :=
  fun r s _ => s 0 * r 0 0 ^ 2

/-- Two batch elements for `x`, one for `a`: `VMAP` returns the derivatives `6` and `12`. -/
example : ∃ J, jacobians .vmap (liftErr (c := fun _ : Fin 1 => vecCls 1) (A := fun _ => ℝ) exF)
      (fun _ => [![1], ![2]]) (fun _ => [3]) = some (J, [![3], ![12]]) ∧ (J 0).length = 2 ∧
      (J 0).getD 1 0 0 0 = 12 := by
  obtain ⟨J, h1, h2⟩ := autodiff_jac_partial (mode := .vmap)
    (liftErr_rowWise (c := fun _ : Fin 1 => vecCls 1) (A := fun _ => ℝ) exF)
    (fun _ => classes_ok.1 1) (B := 2) (by norm_num) (x := fun _ => [![1], ![2]])
    (a := fun _ => [3])
    ⟨fun _ => Or.inl rfl, fun _ => Or.inr rfl, Or.inl ⟨0, rfl⟩⟩
  refine ⟨J, ?_, (h2 0).1, ?_⟩
  · rw [h1]
    congr 2
    simp only [List.range_succ, List.range_zero, List.nil_append, List.map_cons,
      List.map_nil, List.cons_append, List.cons.injEq, and_true]
    constructor <;> ext i <;> obtain rfl : i = 0 := Subsingleton.elim _ _
    · show (3 : ℝ) * 1 ^ 2 = 3
      norm_num
    · show (3 : ℝ) * 2 ^ 2 = 12
      norm_num
  · have h := (h2 0).2 1 (by norm_num) (Vec.emb 1) (fun g => g) (vec_represents 1) ![2] rfl
      (fun o => by
        show DifferentiableAt ℝ (fun z : Fin 1 → ℝ => (3 : ℝ) * z 0 ^ 2) ![2]
        fun_prop) (fun t => ![2] + t • ![1]) ![1] (by simp) ?_ 0
    · have h' : HasDerivAt (fun t : ℝ => 3 * (2 + t) ^ 2) 12 0 := by
        have := ((((hasDerivAt_id (0 : ℝ)).const_add 2).pow 2).const_mul 3)
        refine (this.congr_deriv ?_)
        norm_num
      have := h.unique (h'.congr_of_eventuallyEq (Filter.Eventually.of_forall fun t => by
        simp [exF, auxOf, pick]))
      simpa [Matrix.mulVec, dotProduct] using this
    · refine ⟨fun _ => trivial, fun i j => ?_⟩
      have e1 : ∀ t : ℝ, (Vec.emb 1).toMatrix (![2] + t • ![1]) i j
          = (1 + Vec.hat ![2] : Matrix (Fin 2) (Fin 2) ℝ) i j + t * Vec.hat ![1] i j := by
        intro t
        simp only [Vec.emb, Vec.hat_add, Vec.hat_smul, Matrix.add_apply, Matrix.smul_apply,
          smul_eq_mul, add_assoc]
      simp only [e1]
      refine (((hasDerivAt_id (0 : ℝ)).mul_const _).const_add _).congr_deriv ?_
      simp only [Vec.emb, Matrix.add_mul, Vec.hat_mul_hat, add_zero, one_mul]

/-- The same call in mode `LOOP_BATCH` returns one row only, in mode `DENSE` it works. -/
example : ∃ J, jacobians .loopBatch (liftErr (c := fun _ : Fin 1 => vecCls 1) (A := fun _ => ℝ) exF)
      (fun _ => [![1], ![2]]) (fun _ => [3])
        = some (J, (List.range 2).map fun b =>
            exF (rowOf (c := fun _ : Fin 1 => vecCls 1) (fun _ => [![1], ![2]]) b) fun _ => 3) ∧
      (J 0).length = 1 := by
  obtain ⟨J, h1, h2⟩ := autodiff_loop_short
    (liftErr_rowWise (c := fun _ : Fin 1 => vecCls 1) (A := fun _ => ℝ) exF) (B := 2) (by norm_num)
    (x := fun _ => [![1], ![2]]) (a := fun _ => [3]) (fun _ => rfl) (fun _ => Or.inr rfl) (j := 0) rfl
    (fun _ => rfl)
  refine ⟨J, ?_, by rw [h2]; rfl⟩
  rw [h1]
  rfl

example : ModeOk (c := fun _ : Fin 1 => vecCls 1) (A := fun _ : Fin 1 => ℝ) 2
    (fun _ => [![1], ![2]]) (fun _ => [3]) .dense := ⟨fun _ => rfl, fun _ => Or.inr rfl⟩

example : ModeOk (c := fun _ : Fin 1 => se3Cls) (A := fun _ : Fin 1 => ℝ) 2
    (fun _ => [0, 0]) (fun _ => [3, 4]) .loopBatch := ⟨fun _ => rfl, fun _ => rfl⟩

end Example

end Verif.Autodiff
