import Verif.Geometry.RandomLemmas

/-!
# What the random and identity group elements are (C115)

Rotations are characterised here by their matrices (`Rᵀ R = 1`, determinant 1), planar ones by `c² + s² = 1`.
-/

namespace Verif.Geometry.Random
open Matrix

/-- A rotation of space. -/
def IsRotation (R : M3) : Prop := Rᵀ * R = 1 ∧ R.det = 1

theorem quats_unit (S : Source) (n : ℕ) (st : S.State) (k : ℕ) :
    ∀ q ∈ (List.range n).map fun i => so3Quat ((S.rand k st).1 i) ((S.rand k st).1 (n + i))
      ((S.rand k st).1 (2 * n + i)), SO3.quatNorm q = 1 := by
  intro q hq
  obtain ⟨i, -, rfl⟩ := List.mem_map.mp hq
  exact so3Quat_norm _ _ (S.rand_nonneg _ _ _) (S.rand_lt_one _ _ _)

theorem checkQuats_ok {checks : Bool} {tol : ℝ} {qs : List (Fin 4 → ℝ)} (ht : 0 < tol)
    (h : ∀ q ∈ qs, SO3.quatNorm q = 1) (hne : checks = true → qs ≠ []) : checkQuats checks tol qs = .ok () := by
  unfold checkQuats
  cases checks with
  | false => simp
  | true =>
    rw [if_neg (by simp), if_neg (hne rfl), if_neg]
    rintro ⟨q, hq, hle⟩
    rw [h q hq, sub_self, abs_zero] at hle
    linarith

/-- **torchlie's `SO3.rand` always returns a batch of rotations of the right size**, for any generator and any number
of sizes, with the checks on or off (an empty batch needs them off), and one that is a leaf of autograd exactly if
asked for.  A single sample `(u1, u2, u3)` gives the rotation of the quaternion of these numbers. -/
theorem so3_rand_returns (S : Source) {tol : ℝ} (ht : 0 < tol) (checks : Bool) (size : List ℕ)
    (hs : checks = true → 0 ∉ size) (requiresGrad : Bool) (st : S.State) :
    ∃ d : Draw S M3, so3Rand S checks tol size requiresGrad st = .ok d ∧ d.rows.length = size.prod ∧
      (∀ R ∈ d.rows, IsRotation R ∧ R 0 0 ≠ -1) ∧
      (d.grad = if requiresGrad then GradKind.leaf else GradKind.none) ∧
      d.next = (S.rand (3 * size.prod) st).2 ∧
      (∀ i (_ : i < size.prod), ∃ u1 u2 u3, u1 = (S.rand (3 * size.prod) st).1 i ∧
        u2 = (S.rand (3 * size.prod) st).1 (size.prod + i) ∧
        u3 = (S.rand (3 * size.prod) st).1 (2 * size.prod + i) ∧
        d.rows[i]? = some (SO3.ofQuaternion ![Real.sqrt (1 - u1) * Real.sin (u2 * 2 * Real.pi),
          Real.sqrt (1 - u1) * Real.cos (u2 * 2 * Real.pi), Real.sqrt u1 * Real.sin (u3 * 2 * Real.pi),
          Real.sqrt u1 * Real.cos (u3 * 2 * Real.pi)])) := by
  have hok := checkQuats_ok (checks := checks) ht (quats_unit S size.prod st (3 * size.prod)) (by
    intro hc hn
    rw [List.map_eq_nil_iff, List.range_eq_nil, List.prod_eq_zero_iff] at hn
    exact hs hc hn)
  refine ⟨_, by simp only [so3Rand, hok]; rfl, by simp, ?_, rfl, rfl, ?_⟩
  · intro R hR
    simp only [List.map_map, List.mem_map, List.mem_range, Function.comp] at hR
    obtain ⟨i, -, rfl⟩ := hR
    have h0 := S.rand_nonneg (3 * size.prod) st i
    have h1 := S.rand_lt_one (3 * size.prod) st i
    have hu := so3Quat_unit ((S.rand (3 * size.prod) st).1 (size.prod + i))
      ((S.rand (3 * size.prod) st).1 (2 * size.prod + i)) h0 h1
    refine ⟨so3_quaternion.1 _ (by rintro h; rw [h] at hu; simp at hu), ?_⟩
    rw [ofQuaternion_first hu, so3Quat_first _ _ h1]
    intro h; linarith
  · intro i hi
    refine ⟨_, _, _, rfl, rfl, rfl, ?_⟩
    simp [hi, so3Quat]

/-- **The rotations `SO3.rand` can draw are all those with `R₀₀ ≠ -1`**: every rotation but the half turns about axes
orthogonal to the first one, which no draw gives. -/
theorem so3_rand_reaches (R : M3) :
    (∃ u1 u2 u3 : ℝ, (0 ≤ u1 ∧ u1 < 1) ∧ (0 ≤ u2 ∧ u2 < 1) ∧ (0 ≤ u3 ∧ u3 < 1) ∧
      SO3.ofQuaternion ![Real.sqrt (1 - u1) * Real.sin (u2 * 2 * Real.pi),
          Real.sqrt (1 - u1) * Real.cos (u2 * 2 * Real.pi), Real.sqrt u1 * Real.sin (u3 * 2 * Real.pi),
          Real.sqrt u1 * Real.cos (u3 * 2 * Real.pi)] = R) ↔
    IsRotation R ∧ R 0 0 ≠ -1 := by
  constructor
  · rintro ⟨u1, u2, u3, ⟨h0, h1⟩, -, -, rfl⟩
    have hu := so3Quat_unit u2 u3 h0 h1
    refine ⟨so3_quaternion.1 _ (fun h => ?_), ?_⟩
    · change so3Quat u1 u2 u3 = 0 at h
      rw [h] at hu; simp at hu
    · change SO3.ofQuaternion (so3Quat u1 u2 u3) 0 0 ≠ -1
      rw [ofQuaternion_first hu, so3Quat_first _ _ h1]
      intro h; linarith
  · rintro ⟨hR, hne⟩
    obtain ⟨q, hq, rfl⟩ := exists_quaternion hR
    obtain ⟨u1, u2, u3, h1, h2, h3, e⟩ := exists_so3Quat hq (by
      rw [ofQuaternion_first hq] at hne
      intro h; rw [h] at hne; norm_num at hne)
    exact ⟨u1, u2, u3, h1, h2, h3, by rw [← e]; rfl⟩

/-- **`SO3.randn` draws rotations, and can draw every one** (for any threshold of the exponential from 0 to two
turns): the exponential of `π` times three normal numbers. -/
theorem so3_randn_draws (S : Source) {eps : ℝ} (he : 0 < eps) (size : List ℕ) (requiresGrad : Bool) (st : S.State) :
    let d := so3Randn S eps size requiresGrad st
    d.rows.length = size.prod ∧ (∀ R ∈ d.rows, IsRotation R) ∧
    (d.grad = if requiresGrad then GradKind.leaf else GradKind.none) ∧
    (∀ i (_ : i < size.prod), d.rows[i]? = some (SO3.exp eps fun j : Fin 3 =>
      Real.pi * (S.randn (size.prod * 3) st).1 (3 * i + j.val))) ∧
    (eps ≤ 4 * Real.pi → ∀ R : M3, IsRotation R → ∃ x : V3, SO3.exp eps (fun j => Real.pi * x j) = R) := by
  refine ⟨by simp [so3Randn], ?_, rfl, ?_, ?_⟩
  · intro R hR
    simp only [so3Randn, List.mem_map] at hR
    obtain ⟨i, -, rfl⟩ := hR
    exact SO3.exp_valid he _
  · intro i hi
    simp only [so3Randn, List.getElem?_map, List.getElem?_range hi, Option.map_some]
    congr 2
    ext j
    fin_cases j <;> simp [row3]
  · intro h4 R hR
    obtain ⟨v, rfl⟩ := exists_exp h4 hR
    refine ⟨fun j => v j / Real.pi, ?_⟩
    congr 1
    ext j
    exact mul_div_cancel₀ _ Real.pi_ne_zero

/-- **torchlie's `SE3.rand` returns poses**: as many as asked for, with the rotations `SO3.rand` draws from the same
state and translations in the unit cube, from the numbers drawn next. -/
theorem se3_rand_returns (S : Source) {tol : ℝ} (ht : 0 < tol) (checks : Bool) (size : List ℕ)
    (hs : checks = true → 0 ∉ size) (requiresGrad : Bool) (st : S.State) :
    ∃ (d : Draw S SE3) (r : Draw S M3), se3Rand S checks tol size requiresGrad st = .ok d ∧
      so3Rand S checks tol size requiresGrad st = .ok r ∧
      d.rows.map SE3.R = r.rows ∧ d.rows.length = size.prod ∧
      (∀ g ∈ d.rows, IsRotation g.R ∧ ∀ j, 0 ≤ g.t j ∧ g.t j < 1) ∧
      (∀ i (_ : i < size.prod), ∃ g, d.rows[i]? = some g ∧
        ∀ j : Fin 3, g.t j = (S.rand (size.prod * 3) r.next).1 (3 * i + j.val)) ∧
      d.grad = r.grad ∧ d.next = (S.rand (size.prod * 3) r.next).2 := by
  obtain ⟨r, hr, hl, hrot, hg, hn, -⟩ := so3_rand_returns S ht checks size hs requiresGrad st
  obtain ⟨r0, hr0, hl0, hrot0, -, hn0, -⟩ := so3_rand_returns S ht checks size hs false st
  have hrows : r0.rows = r.rows ∧ r0.next = r.next := by
    simp only [so3Rand] at hr hr0
    split at hr
    · cases hr
    · rename_i heq
      rw [heq] at hr0
      cases hr; cases hr0
      exact ⟨rfl, rfl⟩
  refine ⟨_, r, by simp only [se3Rand, hr0]; rfl, hr, ?_, by simp, ?_, ?_, hg.symm, ?_⟩
  · apply List.ext_getElem?
    intro i
    by_cases hi : i < size.prod
    · have hir : i < r0.rows.length := by rw [hl0]; exact hi
      simp only [List.getElem?_map, List.getElem?_range hi, Option.map_some, ← hrows.1,
        List.getD_eq_getElem?_getD, List.getElem?_eq_getElem hir, Option.getD_some]
    · rw [List.getElem?_eq_none (by simpa using hi), List.getElem?_eq_none (by rw [hl]; exact not_lt.mp hi)]
  · intro g hg'
    obtain ⟨i, hi, rfl⟩ := List.mem_map.mp hg'
    have hi' : i < r0.rows.length := by rw [hl0]; exact List.mem_range.mp hi
    refine ⟨?_, fun j => ?_⟩
    · show IsRotation (r0.rows.getD i 0)
      rw [List.getD_eq_getElem?_getD, List.getElem?_eq_getElem hi', Option.getD_some]
      exact (hrot0 _ (List.getElem_mem hi')).1
    · fin_cases j <;> exact ⟨S.rand_nonneg _ _ _, S.rand_lt_one _ _ _⟩
  · intro i hi
    refine ⟨_, by simp only [List.getElem?_map, List.getElem?_range hi, Option.map_some]; rfl, ?_⟩
    intro j
    rw [← hrows.2]
    fin_cases j <;> rfl
  · rw [← hrows.2]

/-- **torchlie's `SE3.randn` returns poses**, with the rotations `SO3.randn` draws and normal translations from the
numbers drawn next. -/
theorem se3_randn_draws (S : Source) {eps : ℝ} (he : 0 < eps) (size : List ℕ) (requiresGrad : Bool) (st : S.State) :
    let d := se3Randn S eps size requiresGrad st
    let r := so3Randn S eps size requiresGrad st
    d.rows.map SE3.R = r.rows ∧ d.rows.length = size.prod ∧ (∀ g ∈ d.rows, IsRotation g.R) ∧
    (∀ i (_ : i < size.prod), ∃ g, d.rows[i]? = some g ∧
        ∀ j : Fin 3, g.t j = (S.randn (size.prod * 3) r.next).1 (3 * i + j.val)) ∧
    d.grad = r.grad ∧ d.next = (S.randn (size.prod * 3) r.next).2 := by
  intro d r
  have hl : r.rows.length = size.prod := by simp [r, so3Randn]
  have hmap : d.rows.map SE3.R = r.rows := by
    apply List.ext_getElem?
    intro i
    by_cases hi : i < size.prod
    · have hir : i < r.rows.length := by rw [hl]; exact hi
      have e : (so3Randn S eps size false st).rows = r.rows := rfl
      simp only [d, se3Randn, List.getElem?_map, List.getElem?_range hi, Option.map_some, e,
        List.getD_eq_getElem?_getD, List.getElem?_eq_getElem hir, Option.getD_some]
    · rw [List.getElem?_eq_none (by simpa [d, se3Randn] using hi),
        List.getElem?_eq_none (by rw [hl]; exact not_lt.mp hi)]
  refine ⟨hmap, by simp [d, se3Randn], ?_, ?_, rfl, rfl⟩
  · intro g hg
    have : g.R ∈ r.rows := by rw [← hmap]; exact List.mem_map_of_mem hg
    exact (so3_randn_draws S he size requiresGrad st).2.1 _ this
  · intro i hi
    refine ⟨_, by simp only [d, se3Randn, List.getElem?_map, List.getElem?_range hi, Option.map_some]; rfl, ?_⟩
    intro j
    fin_cases j <;> rfl

/-- **theseus' `rand` and `randn` take exactly one size** (two for `Vector`) and raise otherwise; with one size `n`
the spatial groups return what torchlie does. -/
theorem theseus_sizes (S : Source) (checks : Bool) (tol eps : ℝ) (requiresGrad gradMode : Bool) (st : S.State) :
    (∀ size : List ℕ, size.length ≠ 1 →
      SO3.rand S checks tol size requiresGrad st = .error .size ∧
      SO3.randn S eps size requiresGrad st = .error .size ∧
      SE3.rand S checks tol size requiresGrad st = .error .size ∧
      SE3.randn S eps size requiresGrad st = .error .size ∧
      SO2.rand S size requiresGrad gradMode st = .error .size ∧
      SO2.randn S size requiresGrad gradMode st = .error .size ∧
      SE2.rand S size requiresGrad gradMode st = .error .size ∧
      SE2.randn S size requiresGrad gradMode st = .error .size ∧
      ∀ d, Point.rand S d size requiresGrad st = .error .size) ∧
    (∀ size : List ℕ, size.length ≠ 2 → Vector.rand S size requiresGrad st = .error .size) ∧
    (∀ n : ℕ,
      SO3.rand S checks tol [n] requiresGrad st = so3Rand S checks tol [n] requiresGrad st ∧
      SO3.randn S eps [n] requiresGrad st = .ok (so3Randn S eps [n] requiresGrad st) ∧
      SE3.rand S checks tol [n] requiresGrad st = se3Rand S checks tol [n] requiresGrad st ∧
      SE3.randn S eps [n] requiresGrad st = .ok (se3Randn S eps [n] requiresGrad st)) := by
  refine ⟨fun size h => ?_, fun size h => ?_, fun n => ⟨?_, ?_, ?_, ?_⟩⟩
  · refine ⟨?_, ?_, ?_, ?_, ?_, ?_, ?_, ?_, fun d => ?_⟩
    · rw [SO3.rand, if_pos h]
    · rw [SO3.randn, if_pos h]
    · rw [SE3.rand, if_pos h]
    · rw [SE3.randn, if_pos h]
    · rw [SO2.rand, if_pos h]
    · rw [SO2.randn, if_pos h]
    · rw [SE2.rand, if_pos h]
    · rw [SE2.randn, if_pos h]
    · match size, h with
      | [], _ => rfl
      | [_], h => exact absurd rfl h
      | _ :: _ :: _, _ => rfl
  · match size, h with
    | [], _ => rfl
    | [_], _ => rfl
    | [_, _], h => exact absurd rfl h
    | _ :: _ :: _ :: _, _ => rfl
  · simp [SO3.rand]
  · simp [SO3.randn]
  · simp [SE3.rand]
  · simp [SE3.randn]

/-- `Vector.rand(n, d)` and `Point.rand(n)`: `n` rows of `d` numbers in `[0, 1)`, in the order drawn, a leaf if asked. -/
theorem vector_rand (S : Source) (n d : ℕ) (requiresGrad : Bool) (st : S.State) :
    ∃ r : Draw S (List ℝ), Vector.rand S [n, d] requiresGrad st = .ok r ∧ Point.rand S d [n] requiresGrad st = .ok r ∧
      r.rows.length = n ∧ (∀ row ∈ r.rows, row.length = d ∧ ∀ x ∈ row, 0 ≤ x ∧ x < 1) ∧
      (r.rows.flatten = (List.range (n * d)).map (S.rand (n * d) st).1) ∧
      (r.grad = if requiresGrad then GradKind.leaf else GradKind.none) := by
  refine ⟨_, rfl, rfl, by simp, ?_, ?_, rfl⟩
  · intro row hrow
    obtain ⟨i, -, rfl⟩ := List.mem_map.mp hrow
    refine ⟨by simp, fun x hx => ?_⟩
    obtain ⟨j, -, rfl⟩ := List.mem_map.mp hx
    exact ⟨S.rand_nonneg _ _ _, S.rand_lt_one _ _ _⟩
  · dsimp only
    generalize (S.rand (n * d) st).1 = x
    induction n with
    | zero => simp
    | succ n ih =>
      rw [List.range_succ, List.map_append, List.flatten_append, ih, Nat.succ_mul, List.range_add, List.map_append]
      simp

/-- **`SO2.rand` and `SO2.randn` return rotations of the plane and can draw every one of them**: angles `2πu - π` for
`u` in `[0, 1)` and `π x` for a normal `x`.  With `requires_grad` the result is no leaf: its `grad` stays empty. -/
theorem so2_rand (S : Source) (n : ℕ) (requiresGrad gradMode : Bool) (st : S.State) :
    (∃ d : Draw S SO2, SO2.rand S [n] requiresGrad gradMode st = .ok d ∧ d.rows.length = n ∧
      (∀ a ∈ d.rows, a.c ^ 2 + a.s ^ 2 = 1) ∧
      (∀ i (_ : i < n), d.rows[i]? = some ⟨Real.cos (2 * Real.pi * (S.rand n st).1 i - Real.pi),
        Real.sin (2 * Real.pi * (S.rand n st).1 i - Real.pi)⟩) ∧
      d.grad ≠ GradKind.leaf ∧ (d.grad = GradKind.computed ↔ requiresGrad = true ∧ gradMode = true)) ∧
    (∃ d : Draw S SO2, SO2.randn S [n] requiresGrad gradMode st = .ok d ∧ d.rows.length = n ∧
      (∀ a ∈ d.rows, a.c ^ 2 + a.s ^ 2 = 1) ∧
      (∀ i (_ : i < n), d.rows[i]? = some ⟨Real.cos (Real.pi * (S.randn n st).1 i),
        Real.sin (Real.pi * (S.randn n st).1 i)⟩) ∧
      d.grad ≠ GradKind.leaf ∧ (d.grad = GradKind.computed ↔ requiresGrad = true ∧ gradMode = true)) ∧
    (∀ a : SO2, a.c ^ 2 + a.s ^ 2 = 1 → ∃ u : ℝ, 0 ≤ u ∧ u < 1 ∧
      a = ⟨Real.cos (2 * Real.pi * u - Real.pi), Real.sin (2 * Real.pi * u - Real.pi)⟩) ∧
    (∀ a : SO2, a.c ^ 2 + a.s ^ 2 = 1 → ∃ x : ℝ, a = ⟨Real.cos (Real.pi * x), Real.sin (Real.pi * x)⟩) := by
  refine ⟨⟨_, by simp only [SO2.rand]; rfl, by simp, ?_, ?_, ?_, ?_⟩,
    ⟨_, by simp only [SO2.randn]; rfl, by simp, ?_, ?_, ?_, ?_⟩, ?_, ?_⟩
  · intro a ha
    obtain ⟨i, -, rfl⟩ := List.mem_map.mp ha
    exact Real.cos_sq_add_sin_sq _
  · intro i hi
    simp [SO2.exp, hi]
  · cases requiresGrad <;> cases gradMode <;> simp [computedIf]
  · cases requiresGrad <;> cases gradMode <;> simp [computedIf]
  · intro a ha
    obtain ⟨i, -, rfl⟩ := List.mem_map.mp ha
    exact Real.cos_sq_add_sin_sq _
  · intro i hi
    simp [SO2.exp, hi]
  · cases requiresGrad <;> cases gradMode <;> simp [computedIf]
  · cases requiresGrad <;> cases gradMode <;> simp [computedIf]
  · intro a ha
    obtain ⟨t, h0, h1, hc, hs⟩ := exists_turn (c := -a.c) (s := -a.s) (by linarith)
    refine ⟨t, h0, h1, ?_⟩
    rw [Real.cos_sub_pi, Real.sin_sub_pi, hc, hs, neg_neg, neg_neg]
  · intro a ha
    obtain ⟨t, -, -, hc, hs⟩ := exists_turn ha
    refine ⟨2 * t, ?_⟩
    rw [show Real.pi * (2 * t) = 2 * Real.pi * t by ring, hc, hs]

/-- **`SE2.rand` and `SE2.randn` return poses of the plane, unless `requires_grad` is given with gradients on, when
they raise**: they write the angles into a leaf.  `rand` draws translations in the unit square and can draw every
such pose. -/
theorem se2_rand (S : Source) (n : ℕ) (requiresGrad gradMode : Bool) (st : S.State) :
    (requiresGrad = true → gradMode = true →
      SE2.rand S [n] requiresGrad gradMode st = .error .inPlaceLeaf ∧
      SE2.randn S [n] requiresGrad gradMode st = .error .inPlaceLeaf) ∧
    ((requiresGrad = false ∨ gradMode = false) →
      (∃ d : Draw S SE2, SE2.rand S [n] requiresGrad gradMode st = .ok d ∧ d.rows.length = n ∧
        d.grad = GradKind.none ∧
        ∀ i (_ : i < n), ∃ x y u θ, x = (S.rand (n * 3) st).1 (3 * i) ∧ y = (S.rand (n * 3) st).1 (3 * i + 1) ∧
          u = (S.rand (n * 3) st).1 (3 * i + 2) ∧ θ = 2 * Real.pi * (u - 1 / 2) ∧
          -Real.pi ≤ θ ∧ θ < Real.pi ∧ (0 ≤ x ∧ x < 1) ∧ (0 ≤ y ∧ y < 1) ∧
          d.rows[i]? = some ⟨x, y, Real.cos θ, Real.sin θ⟩) ∧
      (∃ d : Draw S SE2, SE2.randn S [n] requiresGrad gradMode st = .ok d ∧ d.rows.length = n ∧
        d.grad = GradKind.none ∧
        ∀ i (_ : i < n), ∃ x y z, x = (S.randn (n * 3) st).1 (3 * i) ∧ y = (S.randn (n * 3) st).1 (3 * i + 1) ∧
          z = (S.randn (n * 3) st).1 (3 * i + 2) ∧
          d.rows[i]? = some ⟨x, y, Real.cos (z * Real.pi), Real.sin (z * Real.pi)⟩)) ∧
    (∀ a : SE2, a.c ^ 2 + a.s ^ 2 = 1 → ∃ u : ℝ, 0 ≤ u ∧ u < 1 ∧
      a = ⟨a.x, a.y, Real.cos (2 * Real.pi * (u - 1 / 2)), Real.sin (2 * Real.pi * (u - 1 / 2))⟩) := by
  refine ⟨?_, ?_, ?_⟩
  · rintro rfl rfl
    simp [SE2.rand, SE2.randn]
  · intro h
    have hb : (requiresGrad && gradMode) = false := by
      rcases h with h | h <;> simp [h]
    refine ⟨⟨_, by simp only [SE2.rand, hb]; rfl, by simp, by simp [computedIf, hb], ?_⟩,
      ⟨_, by simp only [SE2.randn, hb]; rfl, by simp, by simp [computedIf, hb], ?_⟩⟩
    · intro i hi
      have p0 := S.rand_nonneg (n * 3) st (3 * i + 2)
      have p1 := S.rand_lt_one (n * 3) st (3 * i + 2)
      have hpi := Real.pi_pos
      refine ⟨_, _, _, _, rfl, rfl, rfl, rfl, by nlinarith, by nlinarith,
        ⟨S.rand_nonneg _ _ _, S.rand_lt_one _ _ _⟩, ⟨S.rand_nonneg _ _ _, S.rand_lt_one _ _ _⟩, ?_⟩
      simp only [List.headD_cons, List.getElem?_map, List.getElem?_range hi, Option.map_some, se2OfXYTheta,
        SO2.exp, row3, Matrix.cons_val_zero, Matrix.cons_val_one, Matrix.cons_val]
      norm_num
    · intro i hi
      refine ⟨_, _, _, rfl, rfl, rfl, ?_⟩
      simp only [List.headD_cons, List.getElem?_map, List.getElem?_range hi, Option.map_some, se2OfXYTheta,
        SO2.exp, row3, Matrix.cons_val_zero, Matrix.cons_val_one, Matrix.cons_val]
  · intro a ha
    obtain ⟨t, h0, h1, hc, hs⟩ := exists_turn (c := -a.c) (s := -a.s) (by linarith)
    refine ⟨t, h0, h1, ?_⟩
    rw [show 2 * Real.pi * (t - 1 / 2) = 2 * Real.pi * t - Real.pi by ring, Real.cos_sub_pi, Real.sin_sub_pi, hc, hs,
      neg_neg, neg_neg]

/-- **`identity` is the identity of the group**, as often as asked for: composing with it on either side changes
nothing. -/
theorem identity_is_identity (eps deps epi : ℝ) (size : List ℕ) :
    (so3Identity size).length = size.prod ∧ (se3Identity size).length = size.prod ∧
    (∀ e ∈ so3Identity size, IsRotation e ∧ ∀ R : M3, (Geometry.SO3.ops eps deps epi).compose e R = R ∧
      (Geometry.SO3.ops eps deps epi).compose R e = R) ∧
    (∀ e ∈ se3Identity size, IsRotation e.R ∧ ∀ g : SE3, Geometry.SE3.compose e g = g ∧
      Geometry.SE3.compose g e = g) := by
  refine ⟨by simp [so3Identity], by simp [se3Identity], ?_, ?_⟩
  · intro e he
    obtain ⟨-, rfl⟩ := List.mem_replicate.mp he
    exact ⟨⟨by simp, by simp⟩, fun R => ⟨one_mul R, mul_one R⟩⟩
  · intro e he
    obtain ⟨-, rfl⟩ := List.mem_replicate.mp he
    exact ⟨⟨by simp, by simp⟩, fun g => se3_group.2.1 g⟩

/-- **A defect.** `_rand_fill_`, with which `check_jacobians` draws the variables of a cost function, leaves out
`SO2` (it lists `SO3` twice): an `SO2` variable is filled with two independent numbers, in general no rotation; for
the other groups it gives elements of the group. -/
theorem rand_fill (S : Source) (n : ℕ) (st : S.State) :
    (∃ d : Draw S SO2, randFillSO2 S n st = .ok d ∧ d.rows.length = n ∧
      ∀ i (_ : i < n), d.rows[i]? = some ⟨(S.rand (n * 2) st).1 (2 * i), (S.rand (n * 2) st).1 (2 * i + 1)⟩) ∧
    (∀ i, (S.rand (n * 2) st).1 (2 * i) < 1 / 2 → (S.rand (n * 2) st).1 (2 * i + 1) < 1 / 2 →
      (S.rand (n * 2) st).1 (2 * i) ^ 2 + (S.rand (n * 2) st).1 (2 * i + 1) ^ 2 ≠ 1) ∧
    (∃ d : Draw S SE2, randFillSE2 S n st = .ok d ∧ d.rows.length = n ∧ ∀ a ∈ d.rows, a.c ^ 2 + a.s ^ 2 = 1) ∧
    (∀ (checks : Bool) (tol : ℝ), 0 < tol → (checks = true → n ≠ 0) →
      (∃ d : Draw S M3, randFillSO3 S checks tol n st = .ok d ∧ d.rows.length = n ∧ ∀ R ∈ d.rows, IsRotation R) ∧
      (∃ d : Draw S SE3, randFillSE3 S checks tol n st = .ok d ∧ d.rows.length = n ∧
        ∀ g ∈ d.rows, IsRotation g.R)) := by
  refine ⟨⟨_, by simp [randFillSO2, usesRand]; rfl, by simp, fun i hi => by simp [hi]⟩, ?_, ?_, ?_⟩
  · intro i h1 h2
    have p1 := S.rand_nonneg (n * 2) st (2 * i)
    have p2 := S.rand_nonneg (n * 2) st (2 * i + 1)
    nlinarith
  · refine ⟨_, by simp [randFillSE2, usesRand, SE2.rand]; rfl, by simp, ?_⟩
    intro a ha
    obtain ⟨i, -, rfl⟩ := List.mem_map.mp ha
    exact Real.cos_sq_add_sin_sq _
  · intro checks tol ht hn
    have hs : checks = true → 0 ∉ [n] := by
      intro hc h0
      exact hn hc (List.mem_singleton.mp h0).symm
    obtain ⟨d, hd, hl, hr, -⟩ := so3_rand_returns S ht checks [n] hs false st
    obtain ⟨e, r, he, -, -, hle, hg, -⟩ := se3_rand_returns S ht checks [n] hs false st
    exact ⟨⟨d, by simpa [randFillSO3, usesRand, SO3.rand] using hd, by simpa using hl, fun R h => (hr R h).1⟩,
      ⟨e, by simpa [randFillSE3, usesRand, SE3.rand] using he, by simpa using hle, fun g h => (hg g h).1⟩⟩

/-! ### Examples -/

/-- A generator that counts its calls and gives one quarter the first time and one half later. -/
noncomputable def demoSource : Source where
  State := ℕ
  rand := fun _ st => (fun _ => if st = 0 then 1 / 4 else 1 / 2, st + 1)
  randn := fun _ st => (fun i => (i : ℝ) - 1, st + 1)
  rand_nonneg := fun _ st i => by dsimp only; split <;> norm_num
  rand_lt_one := fun _ st i => by dsimp only; split <;> norm_num

/-- The hypotheses are met with the checks on and a batch of shape `(2, 3)`. -/
example : ∃ d, so3Rand demoSource true (1 / 1000) [2, 3] true (0 : ℕ) = .ok d ∧ d.rows.length = 6 := by
  obtain ⟨d, h, hl, -⟩ := so3_rand_returns demoSource (tol := 1 / 1000) (by norm_num) true [2, 3] (by simp) true
    (0 : ℕ)
  exact ⟨d, h, by simpa using hl⟩

/-- Under the checks an empty batch raises. -/
example : so3Rand demoSource true (1 / 1000) [0] false (0 : ℕ) = .error .emptyMax := by
  simp [so3Rand, checkQuats]

/-- The half turn about the second axis is a rotation that no draw gives; the quarter turn `SO3.quarter` is drawn. -/
example : IsRotation (!![-1, 0, 0; 0, 1, 0; 0, 0, -1] : M3) ∧ (!![-1, 0, 0; 0, 1, 0; 0, 0, -1] : M3) 0 0 = -1 ∧
    IsRotation Geometry.SO3.quarter ∧ Geometry.SO3.quarter 0 0 ≠ -1 := by
  refine ⟨⟨?_, ?_⟩, by simp, Geometry.SO3.quarter_valid, ?_⟩
  · ext i j
    fin_cases i <;> fin_cases j <;> simp [Matrix.mul_apply, Fin.sum_univ_three]
  · simp [Matrix.det_fin_three]
  · simp [Geometry.SO3.quarter]

/-- `_rand_fill_` gives the pair `(1/4, 1/4)` for an `SO2` variable. -/
example : ∃ d, randFillSO2 demoSource 1 (0 : ℕ) = .ok d ∧ d.rows = [⟨1 / 4, 1 / 4⟩] :=
  ⟨_, by simp [randFillSO2, usesRand]; rfl, by simp [demoSource]⟩

end Verif.Geometry.Random
