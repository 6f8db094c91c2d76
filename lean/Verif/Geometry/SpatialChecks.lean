import Verif.Geometry.Quaternion

/-!
# Checks: `hat`/`vee`, the validation in the constructors, and the normalisation

Models of `check_hat_tensor`, `check_group_tensor` (torchlie `so3_impl.py`, `se3_impl.py`),
`checks_base` (`check_contexts.py`), `Manifold.__init__` and `Manifold._check_tensor`
(`theseus/geometry/manifold.py`), `_normalize_impl` (`so3_impl.py`, `se3_impl.py`).

A batch is a list of elements; torch's `t.abs().max() > eps` on a (non-empty) batch is "some entry
of some element is above `eps`".  `lie` is the thread-local flag of torchlie's
`_LieGroupCheckContext`, `False` unless the user enters `torchlie.functional.enable_checks`
(check_contexts.py L12-35).
-/

namespace Verif.Geometry
open Matrix

/-- `_LieGroupCheckContext.get_context` of torchlie in a fresh thread (check_contexts.py
L16-19). -/
def lieCheckDefault : Bool := false

namespace SO3

/-- The condition of `check_hat_tensor` (so3_impl.py L68-74) on one element. -/
def HatCheck (eps : ℝ) (m : M3) : Prop := ∀ i j, |(mᵀ + m) i j| ≤ eps

/-- `_vee_impl` (so3_impl.py L633-642) on a batch, with `check_hat_tensor` (L68-82) under
`checks_base` (check_contexts.py L38-44); `none` is the `ValueError`.  `theseus` `SO3.vee` (so3.py
L242-245) runs the same check once more before. -/
noncomputable def veeBatch (lie : Bool) (eps : ℝ) (ms : List M3) : Option (List V3) :=
  open Classical in
  if lie = true ∧ ∃ m ∈ ms, ¬ HatCheck eps m then none else some (ms.map veeRaw)

/-- The condition of `check_group_tensor` (so3_impl.py L30-43) on one element. -/
def GroupCheck (eps : ℝ) (m : M3) : Prop :=
  (∀ i j, |(m * mᵀ - 1) i j| < eps) ∧ |m.det - 1| < eps

/-- `_normalize_impl_helper` (so3_impl.py L1133-1141) given the factors `u`, `v` that `torch.svd`
returned: the last column of `v` is negated unless `det(u @ v) > 0`. -/
noncomputable def normalizeOf (u v : M3) : M3 :=
  let v' : M3 := if u.det * v.det > 0 then v
    else Matrix.of fun i j => if j = 2 then -v i j else v i j
  u * v'ᵀ

end SO3

namespace SE3

/-- The upper left 3x3 block `t_[..., :3, :3]`. -/
def block3 (m : Matrix (Fin 4) (Fin 4) ℝ) : M3 :=
  Matrix.of fun i j => m i.castSucc j.castSucc

/-- The condition of `check_hat_tensor` (se3_impl.py L51-56) on one element.  `t_[..., -1]` is the
last *column*, although the message speaks of the last row; `heps` is `LIE_PARAMS` "se3 hat" and
`heps3` "so3 hat". -/
def HatCheck (heps heps3 : ℝ) (m : Matrix (Fin 4) (Fin 4) ℝ) : Prop :=
  (∀ i, |m i 3| ≤ heps) ∧ SO3.HatCheck heps3 (block3 m)

/-- `_vee_impl` (se3_impl.py L657-669) on a batch, with `check_hat_tensor` (L51-64). -/
noncomputable def veeBatch (lie : Bool) (heps heps3 : ℝ) (ms : List (Matrix (Fin 4) (Fin 4) ℝ)) :
    Option (List (Fin 6 → ℝ)) :=
  open Classical in
  if lie = true ∧ ∃ m ∈ ms, ¬ HatCheck heps heps3 m then none else some (ms.map veeRaw)

/-- `_normalize_impl` (se3_impl.py L1064-1068) given the SVD factors of the rotation block. -/
noncomputable def normalizeOf (u v : M3) (g : SE3) : SE3 := ⟨SO3.normalizeOf u v, g.t⟩

end SE3

/-! ## The constructors -/

/-- The three thread-local flags of theseus's `_LieGroupCheckContext` (lie_group_check.py
L10-38). -/
structure CheckCtx where
  checks : Bool
  silent : Bool
  silenceInternal : Bool

/-- The flags in a fresh thread (lie_group_check.py L15-18). -/
def CheckCtx.default : CheckCtx := ⟨true, false, false⟩

/-- The warnings `Manifold.__init__` can emit about its tensor (manifold.py L63-67, L140-144). -/
inductive CheckWarning | disabled | normalized
  deriving DecidableEq

/-- What `Manifold.__init__` needs to know of the class: `_check_tensor_impl` and `normalize`, on a
whole batch. -/
structure Validator (α : Type) where
  check : List α → Prop
  normalize : List α → List α

/-- `Manifold._check_tensor` (manifold.py L125-147); `none` is the `ValueError`. -/
noncomputable def Validator.checkTensor {α : Type} (V : Validator α) (strict silent : Bool)
    (ts : List α) : Option (List α × List CheckWarning) :=
  open Classical in
  if V.check ts then some (ts, [])
  else if strict then none
  else some (V.normalize ts, if silent then [] else [.normalized])

/-- `Manifold.__init__` with `tensor` given (manifold.py L45-80): the tensor the variable ends up
with and the warnings; `none` is the `ValueError`.  Dtypes and names are not modelled. -/
noncomputable def Validator.construct {α : Type} (V : Validator α) (ctx : CheckCtx)
    (strict disable : Bool) (ts : List α) : Option (List α × List CheckWarning) :=
  let enabled := if disable then false else ctx.checks
  let silent := if disable then true else ctx.silent
  let noInternal := if disable then true else ctx.silenceInternal
  if enabled then V.checkTensor strict noInternal ts
  else some (ts, if silent then [] else [.disabled])

/-- `SO2` (so2.py L131-145, L187-204): `eps` and `neps` are the tolerances "so2 matrix" and
"so2 norm". -/
noncomputable def SO2.validator (eps neps : ℝ) : Validator SO2 where
  check ts := ∀ a ∈ ts, SO2.Check eps a
  normalize ts := ts.map (SO2.normalize neps)

/-- `SE2` (se2.py L230-236, L302-307). -/
noncomputable def SE2.validator (eps neps : ℝ) : Validator SE2 where
  check ts := ∀ a ∈ ts, SO2.Check eps ⟨a.c, a.s⟩
  normalize ts := ts.map fun a =>
    let r := SO2.normalize neps ⟨a.c, a.s⟩
    { a with c := r.c, s := r.s }

/-- `Vector`, `Point2`, `Point3` (vector.py L216-228). -/
def Vec.validator (n : ℕ) : Validator (Fin n → ℝ) where
  check _ := True
  normalize ts := ts

/-- `SO3` (so3.py L115-125, L168-172): `check_group_tensor` (so3_impl.py L30-48) does nothing
unless torchlie's flag is set.  `svd` stands for `torch.svd`. -/
noncomputable def SO3.validator (lie : Bool) (eps : ℝ) (svd : M3 → M3 × V3 × M3) :
    Validator M3 where
  check ts := lie = true → ∀ m ∈ ts, SO3.GroupCheck eps m
  normalize ts := ts.map fun m => SO3.normalizeOf (svd m).1 (svd m).2.2

/-- `SE3` (se3.py L116-125, L172-176). -/
noncomputable def SE3.validator (lie : Bool) (eps : ℝ) (svd : M3 → M3 × V3 × M3) :
    Validator SE3 where
  check ts := lie = true → ∀ g ∈ ts, SO3.GroupCheck eps g.R
  normalize ts := ts.map fun g => SE3.normalizeOf (svd g.R).1 (svd g.R).2.2 g

/-! ## C47: hat and vee -/

/-- `SO3`: `hat` is linear, `vee` undoes `hat` whether or not checks are on; with checks on `vee`
raises exactly if some matrix is not skew-symmetric up to the tolerance, and otherwise `hat`
undoes `vee` up to half the tolerance. -/
theorem so3_hat_vee {eps : ℝ} (he : 0 ≤ eps) :
    (∀ (r : ℝ) (u v : V3), SO3.hat (r • u + v) = r • SO3.hat u + SO3.hat v) ∧
    (∀ lie vs, SO3.veeBatch lie eps (vs.map SO3.hat) = some vs) ∧
    (∀ ms, SO3.veeBatch true eps ms = none ↔ ∃ m ∈ ms, ∃ i j, eps < |m i j + m j i|) ∧
    (∀ ms vs, SO3.veeBatch true eps ms = some vs →
      List.Forall₂ (fun m v => ∀ i j, |SO3.hat v i j - m i j| ≤ eps / 2) ms vs) := by
  have hvh : ∀ v, SO3.veeRaw (SO3.hat v) = v := by
    intro v; ext i; fin_cases i <;> simp [SO3.veeRaw, SO3.project, SO3.hat] <;> ring
  have hnot : ∀ m, ¬ SO3.HatCheck eps m ↔ ∃ i j, eps < |m i j + m j i| := by
    intro m
    simp only [SO3.HatCheck, Matrix.add_apply, Matrix.transpose_apply]
    push Not
    constructor
    · rintro ⟨i, j, h⟩; exact ⟨j, i, h⟩
    · rintro ⟨i, j, h⟩; exact ⟨j, i, h⟩
  refine ⟨?_, ?_, ?_, ?_⟩
  · intro r u v
    ext i j; fin_cases i <;> fin_cases j <;> simp [SO3.hat] <;> ring
  · intro lie vs
    rw [SO3.veeBatch, if_neg, List.map_map]
    · congr 1
      conv_rhs => rw [← List.map_id vs]
      exact List.map_congr_left fun v _ => hvh v
    · rintro ⟨-, m, hm, h⟩
      obtain ⟨v, -, rfl⟩ := List.mem_map.mp hm
      apply h
      intro i j
      fin_cases i <;> fin_cases j <;> simpa [SO3.hat] using he
  · intro ms
    simp only [SO3.veeBatch, true_and, ← hnot]
    split <;> simp_all
  · intro ms vs h
    simp only [SO3.veeBatch, true_and] at h
    split at h
    · exact absurd h (by simp)
    · rename_i hc
      replace hc : ∀ m ∈ ms, SO3.HatCheck eps m := fun m hm => by
        by_contra hcon; exact hc ⟨rfl, m, hm, hcon⟩
      obtain rfl := Option.some.inj h
      rw [List.forall₂_map_right_iff, List.forall₂_same]
      intro m hm i j
      have := hc m hm i j
      simp only [Matrix.add_apply, Matrix.transpose_apply] at this
      have e : SO3.hat (SO3.veeRaw m) i j - m i j = -(1 / 2) * (m j i + m i j) := by
        fin_cases i <;> fin_cases j <;> simp [SO3.hat, SO3.veeRaw, SO3.project] <;> ring
      rw [e, abs_mul]
      norm_num
      linarith

/-- Without `enable_checks`, which is the default, `vee` accepts every matrix: the identity is not
the hat of any vector and is mapped to 0. -/
theorem so3_vee_unchecked (eps : ℝ) :
    (∀ ms, SO3.veeBatch lieCheckDefault eps ms ≠ none) ∧
    SO3.veeBatch lieCheckDefault eps [1] = some [0] ∧ ∀ v, SO3.hat v ≠ 1 := by
  refine ⟨fun ms => by simp [SO3.veeBatch, lieCheckDefault], ?_, ?_⟩
  · simp only [SO3.veeBatch, lieCheckDefault, Bool.false_eq_true, false_and, if_false]
    have e : SO3.veeRaw (1 : M3) = 0 := by
      ext i; fin_cases i <;> simp [SO3.veeRaw, SO3.project]
    simp only [List.map_cons, List.map_nil, e]
  · intro v h
    have := congrFun (congrFun h 0) 0
    simp [SO3.hat] at this

/-- `SE3`: `hat` is linear and, with the checks off, `vee` undoes it.  With the checks on an
accepted matrix is, except for its last row, the hat of the result up to half the tolerance. -/
theorem se3_hat_vee_partial {heps heps3 : ℝ} :
    (∀ (r : ℝ) (u v : Fin 6 → ℝ), SE3.hat (r • u + v) = r • SE3.hat u + SE3.hat v) ∧
    (∀ vs, SE3.veeBatch false heps heps3 (vs.map SE3.hat) = some vs) ∧
    (∀ ms vs, SE3.veeBatch true heps heps3 ms = some vs →
      List.Forall₂ (fun m v => ∀ (i : Fin 3) (j : Fin 4),
        |SE3.hat v i.castSucc j - m i.castSucc j| ≤ heps3 / 2) ms vs) := by
  refine ⟨?_, ?_, ?_⟩
  · intro r u v
    ext i j; fin_cases i <;> fin_cases j <;> simp [SE3.hat, SE3.hom, SO3.hat, SE3.ang, SE3.lin] <;> ring
  · intro vs
    simp only [SE3.veeBatch, Bool.false_eq_true, false_and, if_false, List.map_map]
    congr 1
    conv_rhs => rw [← List.map_id vs]
    refine List.map_congr_left fun v _ => ?_
    ext i; fin_cases i <;> simp [SE3.veeRaw, SE3.hat, SE3.hom, SO3.hat, SE3.ang, SE3.lin] <;> ring
  · intro ms vs h
    simp only [SE3.veeBatch, true_and] at h
    split at h
    · exact absurd h (by simp)
    · rename_i hc
      replace hc : ∀ m ∈ ms, SE3.HatCheck heps heps3 m := fun m hm => by
        by_contra hcon; exact hc ⟨rfl, m, hm, hcon⟩
      obtain rfl := Option.some.inj h
      rw [List.forall₂_map_right_iff, List.forall₂_same]
      intro m hm i j
      have h3 := (hc m hm).2
      have h0 : 0 ≤ heps3 := le_trans (abs_nonneg _) (h3 0 0)
      induction j using Fin.lastCases with
      | last =>
        have e : SE3.hat (SE3.veeRaw m) i.castSucc (Fin.last 3) - m i.castSucc (Fin.last 3) = 0 := by
          fin_cases i <;> simp [SE3.veeRaw, SE3.hat, SE3.hom, SO3.hat, SE3.ang, SE3.lin, Fin.last]
        rw [e, abs_zero]; linarith
      | cast j =>
        have := h3 i j
        simp only [Matrix.add_apply, Matrix.transpose_apply, SE3.block3, Matrix.of_apply] at this
        have e : SE3.hat (SE3.veeRaw m) i.castSucc j.castSucc - m i.castSucc j.castSucc
            = -(1 / 2) * (m j.castSucc i.castSucc + m i.castSucc j.castSucc) := by
          fin_cases i <;> fin_cases j <;> simp [SE3.veeRaw, SE3.hat, SE3.hom, SO3.hat, SE3.ang, SE3.lin] <;> ring
        rw [e, abs_mul]
        norm_num
        linarith

/-- The code violates "`vee(hat(v)) = v`" for `SE3` with the checks on: the check meant for the
last row looks at the last column, so `vee` raises exactly on the hats of vectors with a
translation above the tolerance. -/
theorem se3_vee_rejects_hats {heps heps3 : ℝ} (h : 0 ≤ heps) (h3 : 0 ≤ heps3)
    (vs : List (Fin 6 → ℝ)) :
    SE3.veeBatch true heps heps3 (vs.map SE3.hat) = none ↔
      ∃ v ∈ vs, heps < |v 0| ∨ heps < |v 1| ∨ heps < |v 2| := by
  have key : ∀ v, ¬ SE3.HatCheck heps heps3 (SE3.hat v) ↔
      heps < |v 0| ∨ heps < |v 1| ∨ heps < |v 2| := by
    intro v
    have hs : SO3.HatCheck heps3 (SE3.block3 (SE3.hat v)) := by
      intro i j
      fin_cases i <;> fin_cases j <;> simpa [SE3.block3, SE3.hat, SE3.hom, SO3.hat, SE3.ang, SE3.lin] using h3
    simp only [SE3.HatCheck, hs, and_true]
    push Not
    constructor
    · rintro ⟨i, hi⟩
      fin_cases i <;> simp [SE3.hat, SE3.hom, SO3.hat, SE3.ang, SE3.lin] at hi
      · exact Or.inl hi
      · exact Or.inr (Or.inl hi)
      · exact Or.inr (Or.inr hi)
      · exact absurd hi (not_lt.mpr h)
    · rintro (hi | hi | hi)
      · exact ⟨0, by simpa [SE3.hat, SE3.hom, SO3.hat, SE3.ang, SE3.lin] using hi⟩
      · exact ⟨1, by simpa [SE3.hat, SE3.hom, SO3.hat, SE3.ang, SE3.lin] using hi⟩
      · exact ⟨2, by simpa [SE3.hat, SE3.hom, SO3.hat, SE3.ang, SE3.lin] using hi⟩
  simp only [SE3.veeBatch, true_and, List.mem_map, exists_exists_and_eq_and, key]
  split <;> simp_all

/-- ... and accepts, checks on, matrices whose last row is arbitrary. -/
theorem se3_vee_accepts_bad_last_row {heps heps3 : ℝ} (h : 0 ≤ heps) (h3 : 0 ≤ heps3) (k : ℝ) :
    SE3.veeBatch true heps heps3 [!![0, 0, 0, 0; 0, 0, 0, 0; 0, 0, 0, 0; k, 0, 0, 0]] = some [0] ∧
    ∀ v, SE3.hat v 3 0 = 0 := by
  refine ⟨?_, fun v => by simp [SE3.hat, SE3.hom, SO3.hat, SE3.ang, SE3.lin]⟩
  rw [SE3.veeBatch, if_neg]
  · have e : SE3.veeRaw !![0, 0, 0, 0; 0, 0, 0, 0; 0, 0, 0, 0; k, 0, 0, 0] = 0 := by
      ext i; fin_cases i <;> simp [SE3.veeRaw]
    simp only [List.map_cons, List.map_nil, e]
  · simp only [true_and, List.mem_singleton, exists_eq_left, not_not]
    refine ⟨fun i => ?_, fun i j => ?_⟩
    · fin_cases i <;> simpa using h
    · fin_cases i <;> fin_cases j <;> simpa [SE3.block3] using h3

/-- Non-vacuity: with the checks on, a nearly skew matrix is accepted and the identity is not. -/
example : SO3.veeBatch true (1 / 10 ^ 6) [!![0, -1, 0; 1, 1 / 10 ^ 7, 0; 0, 0, 0]] ≠ none ∧
    SO3.veeBatch true (1 / 10 ^ 6) [1] = none := by
  have h := (so3_hat_vee (eps := 1 / 10 ^ 6) (by norm_num)).2.2.1
  constructor
  · rw [Ne, h]
    simp only [List.mem_singleton, exists_eq_left, not_exists, not_lt]
    intro i j
    fin_cases i <;> fin_cases j <;> simp <;> norm_num [abs_of_pos]
  · rw [h]
    exact ⟨1, by simp, 0, 0, by norm_num⟩

/-! ## C62: the constructors -/

/-- What every constructor does: with `disable_checks` or with the checks switched off the tensor
is stored as given; otherwise it is stored as given if the class's check accepts the whole batch,
and if not, a strict constructor raises and a non-strict one stores the normalised batch, with a
warning unless these are silenced. -/
theorem construct_spec {α : Type} (V : Validator α) (ctx : CheckCtx) (strict disable : Bool)
    (ts : List α) :
    (disable = true → V.construct ctx strict disable ts = some (ts, [])) ∧
    (disable = false → ctx.checks = false →
      V.construct ctx strict disable ts = some (ts, if ctx.silent then [] else [.disabled])) ∧
    (disable = false → ctx.checks = true →
      (V.check ts → V.construct ctx strict disable ts = some (ts, [])) ∧
      (¬ V.check ts → strict = true → V.construct ctx strict disable ts = none) ∧
      (¬ V.check ts → strict = false → V.construct ctx strict disable ts
        = some (V.normalize ts, if ctx.silenceInternal then [] else [.normalized]))) := by
  refine ⟨?_, ?_, ?_⟩
  · rintro rfl; simp [Validator.construct]
  · rintro rfl h; simp [Validator.construct, h]
  · rintro rfl h
    refine ⟨fun hc => ?_, fun hc hs => ?_, fun hc hs => ?_⟩ <;>
      simp [Validator.construct, Validator.checkTensor, *]

/-- `SO2`, checks on (the default): whatever the constructor stores is a unit pair up to the
tolerance, provided no row of the tensor is zero; a strict constructor raises exactly if some row
is not. -/
theorem so2_construct_valid {eps neps : ℝ} (he : 0 ≤ eps) (ctx : CheckCtx) (strict : Bool)
    (hc : ctx.checks = true) (ts : List SO2) :
    (∀ ts' w, (SO2.validator eps neps).construct ctx strict false ts = some (ts', w) →
      (∀ a ∈ ts, a.c ≠ 0 ∨ a.s ≠ 0) →
      ∀ a ∈ ts', |Real.sqrt (a.c ^ 2 + a.s ^ 2) - 1| ≤ eps) ∧
    ((SO2.validator eps neps).construct ctx true false ts = none ↔
      ∃ a ∈ ts, eps < |Real.sqrt (a.c ^ 2 + a.s ^ 2) - 1|) ∧
    ((∀ a ∈ ts, a.c ^ 2 + a.s ^ 2 = 1) →
      (SO2.validator eps neps).construct ctx strict false ts = some (ts, [])) := by
  obtain ⟨-, -, h⟩ := construct_spec (SO2.validator eps neps) ctx strict false ts
  obtain ⟨-, -, ht⟩ := construct_spec (SO2.validator eps neps) ctx true false ts
  obtain ⟨h1, h2, h3⟩ := h rfl hc
  obtain ⟨ht1, ht2, -⟩ := ht rfl hc
  have hcheck : (SO2.validator eps neps).check ts ↔
      ∀ a ∈ ts, |Real.sqrt (a.c ^ 2 + a.s ^ 2) - 1| ≤ eps := Iff.rfl
  refine ⟨?_, ?_, ?_⟩
  · intro ts' w hts hnz a ha
    by_cases hk : (SO2.validator eps neps).check ts
    · rw [h1 hk] at hts
      obtain ⟨rfl, -⟩ := Prod.mk.inj (Option.some.inj hts)
      exact hcheck.mp hk a ha
    · cases strict
      · rw [h3 hk rfl] at hts
        obtain ⟨rfl, -⟩ := Prod.mk.inj (Option.some.inj hts)
        obtain ⟨b, hb, rfl⟩ := List.mem_map.mp ha
        have hpos : 0 < Real.sqrt (b.c ^ 2 + b.s ^ 2) := by
          apply Real.sqrt_pos.mpr
          rcases hnz b hb with h | h <;> positivity
        have h1 : (SO2.normalize neps b).c ^ 2 + (SO2.normalize neps b).s ^ 2 = 1 := by
          have hsq : Real.sqrt (b.c ^ 2 + b.s ^ 2) ^ 2 = b.c ^ 2 + b.s ^ 2 :=
            Real.sq_sqrt (by positivity)
          unfold SO2.normalize
          simp only
          split
          · norm_num
          · simp only [div_pow]
            rw [← add_div, hsq, div_self]
            rw [← hsq]; exact pow_ne_zero 2 hpos.ne'
        rw [h1, Real.sqrt_one, sub_self, abs_zero]
        exact he
      · rw [h2 hk rfl] at hts; exact absurd hts (by simp)
  · constructor
    · intro hn
      by_contra hcon
      push Not at hcon
      rw [ht1 (hcheck.mpr hcon)] at hn
      exact absurd hn (by simp)
    · rintro ⟨a, ha, hlt⟩
      exact ht2 (fun hk => absurd (hcheck.mp hk a ha) (not_le.mpr hlt)) rfl
  · intro hu
    refine h1 (hcheck.mpr fun a ha => ?_)
    rw [hu a ha, Real.sqrt_one, sub_self, abs_zero]
    exact he

/-- `SE2`: the same, and the translations are never touched. -/
theorem se2_construct_valid {eps neps : ℝ} (he : 0 ≤ eps) (ctx : CheckCtx) (strict : Bool)
    (hc : ctx.checks = true) (ts : List SE2) :
    (∀ ts' w, (SE2.validator eps neps).construct ctx strict false ts = some (ts', w) →
      (∀ a ∈ ts, a.c ≠ 0 ∨ a.s ≠ 0) →
      (∀ a ∈ ts', |Real.sqrt (a.c ^ 2 + a.s ^ 2) - 1| ≤ eps) ∧
      ts'.map (fun a => (a.x, a.y)) = ts.map (fun a => (a.x, a.y))) ∧
    ((SE2.validator eps neps).construct ctx true false ts = none ↔
      ∃ a ∈ ts, eps < |Real.sqrt (a.c ^ 2 + a.s ^ 2) - 1|) ∧
    ((∀ a ∈ ts, a.c ^ 2 + a.s ^ 2 = 1) →
      (SE2.validator eps neps).construct ctx strict false ts = some (ts, [])) := by
  obtain ⟨-, -, h⟩ := construct_spec (SE2.validator eps neps) ctx strict false ts
  obtain ⟨-, -, ht⟩ := construct_spec (SE2.validator eps neps) ctx true false ts
  obtain ⟨h1, h2, h3⟩ := h rfl hc
  obtain ⟨ht1, ht2, -⟩ := ht rfl hc
  have hcheck : (SE2.validator eps neps).check ts ↔
      ∀ a ∈ ts, |Real.sqrt (a.c ^ 2 + a.s ^ 2) - 1| ≤ eps := Iff.rfl
  refine ⟨?_, ?_, ?_⟩
  · intro ts' w hts hnz
    by_cases hk : (SE2.validator eps neps).check ts
    · rw [h1 hk] at hts
      obtain ⟨rfl, -⟩ := Prod.mk.inj (Option.some.inj hts)
      exact ⟨hcheck.mp hk, rfl⟩
    · cases strict
      · rw [h3 hk rfl] at hts
        obtain ⟨rfl, -⟩ := Prod.mk.inj (Option.some.inj hts)
        refine ⟨fun a ha => ?_, ?_⟩
        · obtain ⟨b, hb, rfl⟩ := List.mem_map.mp ha
          have hpos : 0 < Real.sqrt (b.c ^ 2 + b.s ^ 2) := by
            apply Real.sqrt_pos.mpr
            rcases hnz b hb with h | h <;> positivity
          have hsq : Real.sqrt (b.c ^ 2 + b.s ^ 2) ^ 2 = b.c ^ 2 + b.s ^ 2 :=
            Real.sq_sqrt (by positivity)
          have h1 : (SO2.normalize neps ⟨b.c, b.s⟩).c ^ 2
              + (SO2.normalize neps ⟨b.c, b.s⟩).s ^ 2 = 1 := by
            unfold SO2.normalize
            simp only
            split
            · norm_num
            · simp only [div_pow]
              rw [← add_div, hsq, div_self]
              rw [← hsq]; exact pow_ne_zero 2 hpos.ne'
          simp only [h1, Real.sqrt_one, sub_self, abs_zero]
          exact he
        · simp [SE2.validator, Function.comp_def]
      · rw [h2 hk rfl] at hts; exact absurd hts (by simp)
  · constructor
    · intro hn
      by_contra hcon
      push Not at hcon
      rw [ht1 (hcheck.mpr hcon)] at hn
      exact absurd hn (by simp)
    · rintro ⟨a, ha, hlt⟩
      exact ht2 (fun hk => absurd (hcheck.mp hk a ha) (not_le.mpr hlt)) rfl
  · intro hu
    refine h1 (hcheck.mpr fun a ha => ?_)
    rw [hu a ha, Real.sqrt_one, sub_self, abs_zero]
    exact he

/-- The code violates the property for `SO3` and `SE3` in the default configuration: every tensor,
valid or not, is stored unchanged and without a warning even by a strict constructor under theseus's
own checks. -/
theorem spatial_construct_unchecked (eps : ℝ) (svd : M3 → M3 × V3 × M3) (strict : Bool) :
    (∀ ts, (SO3.validator lieCheckDefault eps svd).construct CheckCtx.default strict false ts
      = some (ts, [])) ∧
    (∀ ts, (SE3.validator lieCheckDefault eps svd).construct CheckCtx.default strict false ts
      = some (ts, [])) := by
  constructor
  · intro ts
    exact (((construct_spec (SO3.validator lieCheckDefault eps svd) CheckCtx.default strict false
      ts).2.2 rfl rfl).1 (by intro h; simp [lieCheckDefault] at h))
  · intro ts
    exact (((construct_spec (SE3.validator lieCheckDefault eps svd) CheckCtx.default strict false
      ts).2.2 rfl rfl).1 (by intro h; simp [lieCheckDefault] at h))

/-! ## The normalisation -/

/-- What `torch.svd` promises: `A = u diag(s) vᵀ` with orthogonal `u`, `v` and singular values in
non-increasing order. -/
structure IsSvd (A u : M3) (s : V3) (v : M3) : Prop where
  uu : uᵀ * u = 1
  vv : vᵀ * v = 1
  eq : A = u * Matrix.diagonal s * vᵀ
  le01 : s 1 ≤ s 0
  le12 : s 2 ≤ s 1
  nonneg : 0 ≤ s 2

namespace SO3

theorem orth_det {u : M3} (h : uᵀ * u = 1) : u.det = 1 ∨ u.det = -1 := by
  have := congrArg Matrix.det h
  rw [Matrix.det_mul, Matrix.det_transpose, Matrix.det_one] at this
  exact mul_self_eq_one_iff.mp this

theorem orth_left {u : M3} (h : uᵀ * u = 1) : u * uᵀ = 1 := mul_eq_one_comm.mp h

/-- `diag(1, 1, -1)`. -/
def flip : M3 := Matrix.diagonal ![1, 1, -1]

theorem flip_flip : flip * flip = 1 := by
  rw [flip, Matrix.diagonal_mul_diagonal, ← Matrix.diagonal_one]
  congr 1
  ext i; fin_cases i <;> simp

theorem flip_transpose : flipᵀ = flip := Matrix.diagonal_transpose _

theorem flip_det : flip.det = -1 := by
  rw [flip, Matrix.det_diagonal]; simp [Fin.prod_univ_three]

theorem normalizeOf_pos {u v : M3} (h : u.det * v.det > 0) : normalizeOf u v = u * vᵀ := by
  rw [normalizeOf]; simp only [if_pos h]

theorem normalizeOf_neg {u v : M3} (h : ¬ u.det * v.det > 0) :
    normalizeOf u v = u * (v * flip)ᵀ := by
  rw [normalizeOf]
  simp only [if_neg h]
  congr 2
  ext i j
  rw [flip, Matrix.mul_diagonal]
  fin_cases j <;> simp

theorem normalizeOf_valid {u v : M3} (hu : uᵀ * u = 1) (hv : vᵀ * v = 1) :
    Valid (normalizeOf u v) := by
  have huv : u.det * v.det = 1 ∨ u.det * v.det = -1 := by
    rcases orth_det hu with h | h <;> rcases orth_det hv with h' | h' <;> simp [h, h']
  by_cases h : u.det * v.det > 0
  · rw [normalizeOf_pos h]
    constructor
    · rw [Matrix.transpose_mul, Matrix.transpose_transpose, Matrix.mul_assoc, ← Matrix.mul_assoc uᵀ,
        hu, Matrix.one_mul, orth_left hv]
    · rw [Matrix.det_mul, Matrix.det_transpose]
      rcases huv with h' | h'
      · exact h'
      · linarith
  · rw [normalizeOf_neg h]
    constructor
    · rw [Matrix.transpose_mul, Matrix.transpose_transpose, Matrix.mul_assoc, ← Matrix.mul_assoc uᵀ,
        hu, Matrix.one_mul, Matrix.transpose_mul, flip_transpose, Matrix.mul_assoc,
        ← Matrix.mul_assoc flip, flip_flip, Matrix.one_mul, orth_left hv]
    · rw [Matrix.det_mul, Matrix.det_transpose, Matrix.det_mul, flip_det]
      rcases huv with h' | h' <;> linarith

/-- The squared Frobenius distance. -/
def frob (A B : M3) : ℝ := ∑ i, ∑ j, (A i j - B i j) ^ 2

theorem frob_eq (A B : M3) : frob A B = (Aᵀ * A).trace - 2 * (Aᵀ * B).trace + (Bᵀ * B).trace := by
  simp only [frob, Matrix.trace, Matrix.diag, Matrix.mul_apply, Matrix.transpose_apply,
    Fin.sum_univ_three]
  ring

/-- The inner product with an SVD. -/
theorem trace_svd {A u v Q : M3} {s : V3} (h : IsSvd A u s v) :
    (Qᵀ * A).trace = (vᵀ * Qᵀ * u) 0 0 * s 0 + (vᵀ * Qᵀ * u) 1 1 * s 1 + (vᵀ * Qᵀ * u) 2 2 * s 2 := by
  rw [h.eq, show Qᵀ * (u * Matrix.diagonal s * vᵀ) = (Qᵀ * u * Matrix.diagonal s) * vᵀ by
    simp only [Matrix.mul_assoc], Matrix.trace_mul_comm]
  rw [show vᵀ * (Qᵀ * u * Matrix.diagonal s) = (vᵀ * Qᵀ * u) * Matrix.diagonal s by
    simp only [Matrix.mul_assoc]]
  simp only [Matrix.trace, Matrix.diag, Matrix.mul_diagonal, Fin.sum_univ_three]

theorem orth_entry {P : M3} (h : Pᵀ * P = 1) (i : Fin 3) : P i i ≤ 1 := by
  have h1 := congrFun (congrFun h i) i
  simp only [Matrix.mul_apply, Matrix.transpose_apply, Fin.sum_univ_three, Matrix.one_apply_eq] at h1
  fin_cases i <;> simp at h1 ⊢ <;>
    nlinarith [sq_nonneg (P 0 0), sq_nonneg (P 1 0), sq_nonneg (P 2 0), sq_nonneg (P 0 1),
      sq_nonneg (P 1 1), sq_nonneg (P 2 1), sq_nonneg (P 0 2), sq_nonneg (P 1 2), sq_nonneg (P 2 2)]

theorem normalizeOf_trace {A u v Q : M3} {s : V3} (h : IsSvd A u s v) (hQ : Valid Q) :
    (Qᵀ * A).trace ≤ ((normalizeOf u v)ᵀ * A).trace := by
  obtain ⟨hu, hv, -, h01, h12, h2⟩ := id h
  have hQQ : Q * Qᵀ = 1 := orth_left hQ.1
  have hPP : (vᵀ * Qᵀ * u)ᵀ * (vᵀ * Qᵀ * u) = 1 := by
    simp only [Matrix.transpose_mul, Matrix.transpose_transpose, Matrix.mul_assoc]
    rw [← Matrix.mul_assoc v, orth_left hv, Matrix.one_mul, ← Matrix.mul_assoc Q, hQQ,
      Matrix.one_mul, hu]
  have hPdet : (vᵀ * Qᵀ * u).det = u.det * v.det := by
    rw [Matrix.det_mul, Matrix.det_mul, Matrix.det_transpose, Matrix.det_transpose, hQ.2]; ring
  have e0 := orth_entry hPP 0
  have e1 := orth_entry hPP 1
  have e2 := orth_entry hPP 2
  rw [trace_svd h, trace_svd h]
  generalize vᵀ * Qᵀ * u = P at *
  by_cases hd : u.det * v.det > 0
  · have e : vᵀ * (normalizeOf u v)ᵀ * u = 1 := by
      rw [normalizeOf_pos hd, Matrix.transpose_mul, Matrix.transpose_transpose, ← Matrix.mul_assoc,
        hv, Matrix.one_mul, hu]
    rw [e]
    simp only [Matrix.one_apply_eq]
    have := mul_le_mul_of_nonneg_right e0 (h2.trans (h12.trans h01))
    have := mul_le_mul_of_nonneg_right e1 (h2.trans h12)
    have := mul_le_mul_of_nonneg_right e2 h2
    linarith
  · have e : vᵀ * (normalizeOf u v)ᵀ * u = flip := by
      rw [normalizeOf_neg hd, Matrix.transpose_mul, Matrix.transpose_transpose, ← Matrix.mul_assoc,
        ← Matrix.mul_assoc, hv, Matrix.one_mul, Matrix.mul_assoc, hu, Matrix.mul_one]
    rw [e]
    have hneg : P.det = -1 := by
      rcases orth_det hPP with h' | h'
      · rw [hPdet] at h'; rw [h'] at hd; exact absurd one_pos hd
      · exact h'
    have hval : Valid (-P) := by
      constructor
      · simpa using hPP
      · rw [Matrix.det_neg, hneg]; simp [Fintype.card_fin]; norm_num
    have htr := hval.cosine_mem.1
    simp only [cosine, Matrix.neg_apply] at htr
    simp only [flip, Matrix.diagonal_apply_eq, Matrix.cons_val]
    have := mul_le_mul_of_nonneg_right e0 (sub_nonneg.mpr (h12.trans h01))
    have := mul_le_mul_of_nonneg_right e1 (sub_nonneg.mpr h12)
    have : (P 0 0 + P 1 1 + P 2 2) * s 2 ≤ 1 * s 2 :=
      mul_le_mul_of_nonneg_right (by linarith) h2
    linarith

theorem normalizeOf_fixed {A u v : M3} {s : V3} (h : IsSvd A u s v) (hA : Valid A) :
    normalizeOf u v = A := by
  have hn := normalizeOf_valid h.uu h.vv
  have h1 := normalizeOf_trace h hA
  have h2 : frob (normalizeOf u v) A ≤ 0 := by
    rw [frob_eq, hn.1]
    rw [hA.1] at h1 ⊢
    simp only [Matrix.trace_one, Fintype.card_fin] at h1 ⊢
    push_cast at h1 ⊢
    linarith
  have hz : ∀ i j, (normalizeOf u v i j - A i j) ^ 2 = 0 := by
    have h0 : frob (normalizeOf u v) A = 0 :=
      le_antisymm h2 (Finset.sum_nonneg fun i _ => Finset.sum_nonneg fun j _ => sq_nonneg _)
    intro i j
    have hi := (Finset.sum_eq_zero_iff_of_nonneg (fun i _ =>
      Finset.sum_nonneg fun j _ => sq_nonneg _)).mp h0 i (Finset.mem_univ _)
    exact (Finset.sum_eq_zero_iff_of_nonneg (fun j _ => sq_nonneg _)).mp hi j (Finset.mem_univ _)
  ext i j
  have := pow_eq_zero_iff (two_ne_zero) |>.mp (hz i j)
  linarith

end SO3

/-- `SO3.normalize` returns a rotation for every matrix, no rotation is nearer to the matrix (in
the Frobenius norm), and rotations are returned unchanged; `SE3.normalize` does this to the
rotation and keeps the translation. -/
theorem so3_normalize {A u v : M3} {s : V3} (h : IsSvd A u s v) :
    ((SO3.normalizeOf u v)ᵀ * SO3.normalizeOf u v = 1 ∧ (SO3.normalizeOf u v).det = 1) ∧
    (∀ Q : M3, (Qᵀ * Q = 1 ∧ Q.det = 1) →
      ∑ i, ∑ j, (SO3.normalizeOf u v i j - A i j) ^ 2 ≤ ∑ i, ∑ j, (Q i j - A i j) ^ 2) ∧
    ((Aᵀ * A = 1 ∧ A.det = 1) → SO3.normalizeOf u v = A) ∧
    (∀ t, SE3.normalizeOf u v ⟨A, t⟩ = ⟨SO3.normalizeOf u v, t⟩) := by
  have hn := SO3.normalizeOf_valid h.uu h.vv
  refine ⟨hn, fun Q hQ => ?_, fun hA => SO3.normalizeOf_fixed h hA, fun t => rfl⟩
  change SO3.frob _ _ ≤ SO3.frob _ _
  rw [SO3.frob_eq, SO3.frob_eq, hn.1, hQ.1]
  linarith [SO3.normalizeOf_trace h hQ]

/-- Non-vacuity: a reflection is normalised too. -/
example : IsSvd (Matrix.diagonal ![3, 2, -1]) SO3.flip ![3, 2, 1] 1 ∧
    SO3.normalizeOf SO3.flip 1 = 1 := by
  refine ⟨⟨by rw [SO3.flip_transpose, SO3.flip_flip], by simp, ?_, by simp; norm_num,
    by simp, by simp⟩, ?_⟩
  · rw [SO3.flip, Matrix.diagonal_mul_diagonal, Matrix.transpose_one, Matrix.mul_one]
    congr 1
    ext i; fin_cases i <;> simp
  · rw [SO3.normalizeOf_neg (by rw [SO3.flip_det]; norm_num), Matrix.one_mul, SO3.flip_transpose,
      SO3.flip_flip]

/-- `SO3` with torchlie's checks enabled too: whatever the constructor stores is orthogonal with
determinant 1 up to the tolerance, and a strict constructor raises exactly if some matrix is
not. -/
theorem so3_construct_valid_partial {eps : ℝ} (he : 0 < eps) {svd : M3 → M3 × V3 × M3}
    (ctx : CheckCtx) (strict : Bool) (hc : ctx.checks = true) (ts : List M3)
    (hsvd : ∀ m ∈ ts, IsSvd m (svd m).1 (svd m).2.1 (svd m).2.2) :
    (∀ ts' w, (SO3.validator true eps svd).construct ctx strict false ts = some (ts', w) →
      ∀ m ∈ ts', (∀ i j, |(m * mᵀ - 1) i j| < eps) ∧ |m.det - 1| < eps) ∧
    ((SO3.validator true eps svd).construct ctx true false ts = none ↔
      ∃ m ∈ ts, ¬ ((∀ i j, |(m * mᵀ - 1) i j| < eps) ∧ |m.det - 1| < eps)) := by
  obtain ⟨-, -, h⟩ := construct_spec (SO3.validator true eps svd) ctx strict false ts
  obtain ⟨-, -, ht⟩ := construct_spec (SO3.validator true eps svd) ctx true false ts
  obtain ⟨h1, h2, h3⟩ := h rfl hc
  obtain ⟨ht1, ht2, -⟩ := ht rfl hc
  have hcheck : (SO3.validator true eps svd).check ts ↔
      ∀ m ∈ ts, (∀ i j, |(m * mᵀ - 1) i j| < eps) ∧ |m.det - 1| < eps := by
    simp [SO3.validator, SO3.GroupCheck]
  refine ⟨?_, ?_⟩
  · intro ts' w hts m hm
    by_cases hk : (SO3.validator true eps svd).check ts
    · rw [h1 hk] at hts
      obtain ⟨rfl, -⟩ := Prod.mk.inj (Option.some.inj hts)
      exact hcheck.mp hk m hm
    · cases strict
      · rw [h3 hk rfl] at hts
        obtain ⟨rfl, -⟩ := Prod.mk.inj (Option.some.inj hts)
        obtain ⟨b, hb, rfl⟩ := List.mem_map.mp hm
        have hv := SO3.normalizeOf_valid (hsvd b hb).uu (hsvd b hb).vv
        have e : SO3.normalizeOf (svd b).1 (svd b).2.2
            * (SO3.normalizeOf (svd b).1 (svd b).2.2)ᵀ - 1 = 0 := by
          rw [SO3.orth_left hv.1, sub_self]
        refine ⟨fun i j => ?_, ?_⟩
        · have := congrFun (congrFun e i) j
          exact lt_of_le_of_lt (le_of_eq (by rw [this]; simp)) he
        · rw [hv.2]; simpa using he
      · rw [h2 hk rfl] at hts; exact absurd hts (by simp)
  · constructor
    · intro hn
      by_contra hcon
      push Not at hcon
      rw [ht1 (hcheck.mpr fun m hm => by simpa using hcon m hm)] at hn
      exact absurd hn (by simp)
    · rintro ⟨a, ha, hlt⟩
      exact ht2 (fun hk => hlt (hcheck.mp hk a ha)) rfl

/-- Non-vacuity of the constructor theorems. -/
example : (SO2.validator (1 / 10 ^ 6) 0).construct CheckCtx.default true false [⟨3 / 5, 4 / 5⟩]
      = some ([⟨3 / 5, 4 / 5⟩], []) ∧
    (SO2.validator (1 / 10 ^ 6) 0).construct CheckCtx.default true false [⟨3, 4⟩] = none := by
  obtain ⟨-, h2, -⟩ := so2_construct_valid (eps := 1 / 10 ^ 6) (neps := 0) (by norm_num)
    CheckCtx.default true rfl [⟨3, 4⟩]
  obtain ⟨-, -, h3⟩ := so2_construct_valid (eps := 1 / 10 ^ 6) (neps := 0) (by norm_num)
    CheckCtx.default true rfl [⟨3 / 5, 4 / 5⟩]
  refine ⟨h3 (by norm_num), h2.mpr ⟨_, List.mem_singleton.mpr rfl, ?_⟩⟩
  have : Real.sqrt (3 ^ 2 + 4 ^ 2) = 5 := by
    rw [Real.sqrt_eq_iff_mul_self_eq_of_pos (by norm_num)]; norm_num
  simp only [this]
  norm_num

end Verif.Geometry
