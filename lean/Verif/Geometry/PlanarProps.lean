import Verif.Geometry.PlanarLog
import Mathlib.Analysis.Real.Pi.Bounds

/-!
# Properties of `SO2`, `SE2` and `Vector` (C42, C43, C44, C47, C48)
-/

namespace Verif.Geometry
open Matrix

/-! ## C42: `SO2` is a group acting by isometries -/

/-- Composition of unit pairs is associative, has the initial tensor `(1, 0)` as identity and
`inverse` as inverse, is commutative, and stays within the unit pairs. -/
theorem so2_group :
    (∀ a b c : SO2, (a.compose b).compose c = a.compose (b.compose c)) ∧
    (∀ a : SO2, SO2.one.compose a = a ∧ a.compose SO2.one = a) ∧
    (∀ a : SO2, a.c ^ 2 + a.s ^ 2 = 1 →
      a.compose a.inverse = SO2.one ∧ a.inverse.compose a = SO2.one) ∧
    (∀ a b : SO2, a.compose b = b.compose a) ∧
    (∀ a b : SO2, a.c ^ 2 + a.s ^ 2 = 1 → b.c ^ 2 + b.s ^ 2 = 1 →
      (a.compose b).c ^ 2 + (a.compose b).s ^ 2 = 1) ∧
    (∀ a : SO2, a.c ^ 2 + a.s ^ 2 = 1 → a.inverse.c ^ 2 + a.inverse.s ^ 2 = 1) := by
  refine ⟨?_, ?_, ?_, ?_, ?_, ?_⟩
  · intro a b c; ext <;> simp [SO2.compose] <;> ring
  · intro a; constructor <;> ext <;> simp [SO2.compose, SO2.one]
  · intro a h
    constructor <;> ext <;> simp [SO2.compose, SO2.one, SO2.inverse] <;>
      first | linear_combination h | ring
  · intro a b; ext <;> simp [SO2.compose] <;> ring
  · exact fun a b ha hb => SO2.lawful.compose_valid a b ha hb
  · exact fun a ha => SO2.lawful.inverse_valid a ha

/-- `rotate` is an action of the group on points, `unrotate` is its inverse, both are the
products with `to_matrix` and its transpose, and distances are preserved. -/
theorem so2_action (a b : SO2) (p q : P2) :
    (a.compose b).rotate p = a.rotate (b.rotate p) ∧
    SO2.one.rotate p = p ∧
    a.unrotate p = a.inverse.rotate p ∧
    (a.c ^ 2 + a.s ^ 2 = 1 → a.unrotate (a.rotate p) = p ∧ a.rotate (a.unrotate p) = p) ∧
    ![(a.rotate p).x, (a.rotate p).y] = a.toMatrix *ᵥ ![p.x, p.y] ∧
    ![(a.unrotate p).x, (a.unrotate p).y] = a.toMatrixᵀ *ᵥ ![p.x, p.y] ∧
    (a.c ^ 2 + a.s ^ 2 = 1 →
      ((a.rotate p).x - (a.rotate q).x) ^ 2 + ((a.rotate p).y - (a.rotate q).y) ^ 2
        = (p.x - q.x) ^ 2 + (p.y - q.y) ^ 2) := by
  refine ⟨?_, ?_, ?_, ?_, ?_, ?_, ?_⟩
  · ext <;> simp [SO2.rotate, SO2.rotateFromCosSin, SO2.compose] <;> ring
  · ext <;> simp [SO2.rotate, SO2.rotateFromCosSin, SO2.one]
  · ext <;> simp [SO2.rotate, SO2.unrotate, SO2.rotateFromCosSin, SO2.inverse]
  · intro h
    constructor
    · ext <;> simp only [SO2.rotate, SO2.unrotate, SO2.rotateFromCosSin]
      · linear_combination p.x * h
      · linear_combination p.y * h
    · ext <;> simp only [SO2.rotate, SO2.unrotate, SO2.rotateFromCosSin]
      · linear_combination p.x * h
      · linear_combination p.y * h
  · ext i; fin_cases i <;>
      simp [SO2.rotate, SO2.rotateFromCosSin, SO2.toMatrix, Matrix.mulVec, dotProduct]; ring
  · ext i; fin_cases i <;>
      simp [SO2.unrotate, SO2.rotateFromCosSin, SO2.toMatrix, Matrix.mulVec, dotProduct]
  · intro h
    simp only [SO2.rotate, SO2.rotateFromCosSin]
    linear_combination ((p.x - q.x) ^ 2 + (p.y - q.y) ^ 2) * h

/-- `exp_map` and `log_map` are mutually inverse between `(-π, π]` and the unit pairs, `exp_map`
is a homomorphism from the additive group, and always returns a unit pair. -/
theorem so2_exp_log :
    (∀ a : SO2, a.c ^ 2 + a.s ^ 2 = 1 → SO2.exp a.log = a) ∧
    (∀ θ : ℝ, -Real.pi < θ → θ ≤ Real.pi → (SO2.exp θ).log = θ) ∧
    (∀ a : SO2, -Real.pi < a.log ∧ a.log ≤ Real.pi) ∧
    (∀ θ φ : ℝ, SO2.exp (θ + φ) = (SO2.exp θ).compose (SO2.exp φ)) ∧
    (∀ θ : ℝ, (SO2.exp θ).c ^ 2 + (SO2.exp θ).s ^ 2 = 1) ∧
    (∀ θ : ℝ, (SO2.exp θ).inverse = SO2.exp (-θ)) := by
  refine ⟨?_, ?_, ?_, ?_, ?_, ?_⟩
  · intro a ha
    ext
    · exact SO2.cos_log ha
    · exact SO2.sin_log ha
  · intro θ h1 h2
    exact SO2.arg_cos_sin h1 h2
  · exact SO2.log_mem
  · intro θ φ
    ext
    · simp [SO2.exp, SO2.compose, Real.cos_add]
    · simp [SO2.exp, SO2.compose, Real.sin_add]
  · intro θ; exact Real.cos_sq_add_sin_sq θ
  · intro θ; ext <;> simp [SO2.exp, SO2.inverse]

/-- `normalize` returns a unit pair for every tensor row whose norm is positive and not below the
tolerance, keeps unit pairs, and keeps the direction. -/
theorem so2_normalize {eps : ℝ} (he : eps ≤ 1) (a : SO2) :
    (0 < Real.sqrt (a.c ^ 2 + a.s ^ 2) →
      (SO2.normalize eps a).c ^ 2 + (SO2.normalize eps a).s ^ 2 = 1) ∧
    (a.c ^ 2 + a.s ^ 2 = 1 → SO2.normalize eps a = a) ∧
    (0 < Real.sqrt (a.c ^ 2 + a.s ^ 2) → eps ≤ Real.sqrt (a.c ^ 2 + a.s ^ 2) →
      a.c = Real.sqrt (a.c ^ 2 + a.s ^ 2) * (SO2.normalize eps a).c ∧
      a.s = Real.sqrt (a.c ^ 2 + a.s ^ 2) * (SO2.normalize eps a).s) := by
  refine ⟨?_, ?_, ?_⟩
  · intro h
    have hsq : Real.sqrt (a.c ^ 2 + a.s ^ 2) ^ 2 = a.c ^ 2 + a.s ^ 2 :=
      Real.sq_sqrt (by positivity)
    unfold SO2.normalize
    simp only
    split
    · norm_num
    · have hn : Real.sqrt (a.c ^ 2 + a.s ^ 2) ≠ 0 := h.ne'
      simp only [div_pow]
      rw [← add_div, hsq, div_self]
      rw [← hsq]; exact pow_ne_zero 2 hn
  · intro h
    unfold SO2.normalize
    simp [h, not_lt.mpr he]
  · intro h hle
    unfold SO2.normalize
    simp only [not_lt.mpr hle, if_false]
    constructor <;> field_simp

/-- With the default options the tolerance `so2_norm_eps_float64` is 0 (`reset` assigns the
float32 tolerance twice and never the float64 one, global_params.py L47-60), so the guard against
a zero row never fires: `normalize` divides by the zero norm. -/
theorem so2_normalize_zero_unguarded :
    ¬ (Real.sqrt ((⟨0, 0⟩ : SO2).c ^ 2 + (⟨0, 0⟩ : SO2).s ^ 2) < 0) ∧
    Real.sqrt ((⟨0, 0⟩ : SO2).c ^ 2 + (⟨0, 0⟩ : SO2).s ^ 2) = 0 := by
  constructor
  · simp
  · simp

example : (⟨3 / 5, 4 / 5⟩ : SO2).c ^ 2 + (⟨3 / 5, 4 / 5⟩ : SO2).s ^ 2 = 1 := by norm_num

/-! ## C43: `SE2` is a group acting on points -/

/-- Composition of poses is associative, has the initial tensor as identity and `inverse` as
inverse, and preserves legal rotations. -/
theorem se2_group :
    (∀ a b c : SE2, (a.compose b).compose c = a.compose (b.compose c)) ∧
    (∀ a : SE2, SE2.one.compose a = a ∧ a.compose SE2.one = a) ∧
    (∀ a : SE2, a.c ^ 2 + a.s ^ 2 = 1 →
      a.compose a.inverse = SE2.one ∧ a.inverse.compose a = SE2.one) ∧
    (∀ a b : SE2, a.c ^ 2 + a.s ^ 2 = 1 → b.c ^ 2 + b.s ^ 2 = 1 →
      (a.compose b).c ^ 2 + (a.compose b).s ^ 2 = 1) ∧
    (∀ a : SE2, a.c ^ 2 + a.s ^ 2 = 1 → a.inverse.c ^ 2 + a.inverse.s ^ 2 = 1) := by
  have L := SE2.lawful (eps := 1) (deps := 2) one_pos
  refine ⟨?_, ?_, ?_, ?_, ?_⟩
  · exact fun a b c => L.assoc a b c
  · intro a
    constructor <;> ext <;>
      simp [SE2.compose, SE2.one, SE2.mk', SE2.rot, SE2.trans, SO2.compose, SO2.rotate,
        SO2.rotateFromCosSin]
  · intro a h
    constructor <;> ext <;>
      simp [SE2.compose, SE2.inverse, SE2.one, SE2.mk', SE2.rot, SE2.trans, SO2.compose,
        SO2.inverse, SO2.rotate, SO2.rotateFromCosSin] <;>
      first
        | ring1
        | linear_combination h
        | linear_combination (-a.x) * h
        | linear_combination (-a.y) * h
  · exact fun a b ha hb => L.compose_valid a b ha hb
  · exact fun a ha => L.inverse_valid a ha

/-- `transform_from` is an action on points, `transform_to` its inverse; both are what the
homogeneous matrices `to_matrix` do, and `to_matrix` is a homomorphism. -/
theorem se2_action (a b : SE2) (p q : P2) :
    (a.compose b).transformFrom p = a.transformFrom (b.transformFrom p) ∧
    SE2.one.transformFrom p = p ∧
    (a.c ^ 2 + a.s ^ 2 = 1 → a.transformTo (a.transformFrom p) = p ∧
      a.transformFrom (a.transformTo p) = p ∧ a.transformTo p = a.inverse.transformFrom p) ∧
    ![(a.transformFrom p).x, (a.transformFrom p).y, 1] = a.toMatrix *ᵥ ![p.x, p.y, 1] ∧
    (a.compose b).toMatrix = a.toMatrix * b.toMatrix ∧
    (a.c ^ 2 + a.s ^ 2 = 1 → a.inverse.toMatrix * a.toMatrix = 1 ∧
      a.toMatrix * a.inverse.toMatrix = 1) ∧
    (a.c ^ 2 + a.s ^ 2 = 1 →
      ((a.transformFrom p).x - (a.transformFrom q).x) ^ 2 +
        ((a.transformFrom p).y - (a.transformFrom q).y) ^ 2
        = (p.x - q.x) ^ 2 + (p.y - q.y) ^ 2) := by
  have L := SE2.lawful (eps := 1) (deps := 2) one_pos
  refine ⟨?_, ?_, ?_, ?_, ?_, ?_, ?_⟩
  · ext <;> simp [SE2.transformFrom, SE2.compose, SE2.mk', SE2.rot, SE2.trans, SO2.compose,
      SO2.rotate, SO2.rotateFromCosSin] <;> ring
  · ext <;> simp [SE2.transformFrom, SE2.one, SO2.rotateFromCosSin]
  · intro h
    refine ⟨?_, ?_, ?_⟩
    · ext <;> simp only [SE2.transformFrom, SE2.transformTo, SO2.rotateFromCosSin]
      · linear_combination p.x * h
      · linear_combination p.y * h
    · ext <;> simp only [SE2.transformFrom, SE2.transformTo, SO2.rotateFromCosSin]
      · linear_combination (p.x - a.x) * h
      · linear_combination (p.y - a.y) * h
    · ext <;> simp [SE2.transformFrom, SE2.transformTo, SE2.inverse, SE2.mk', SE2.rot,
        SO2.inverse, SO2.rotate, SO2.rotateFromCosSin] <;> ring
  · ext i; fin_cases i <;>
      simp [SE2.transformFrom, SO2.rotateFromCosSin, SE2.toMatrix, Matrix.mulVec, dotProduct,
        Fin.sum_univ_three]; ring
  · exact L.toMatrix_compose a b
  · exact fun h => ⟨L.toMatrix_inverse a h, L.mul_inverse h⟩
  · intro h
    simp only [SE2.transformFrom, SO2.rotateFromCosSin]
    linear_combination ((p.x - q.x) ^ 2 + (p.y - q.y) ^ 2) * h

/-- The adjoint conjugates: `T hat(v) T⁻¹ = hat(Ad(T) v)`, and is a homomorphism. -/
theorem se2_adjoint (a b : SE2) (v : Fin 3 → ℝ) :
    (a.c ^ 2 + a.s ^ 2 = 1 →
      a.toMatrix * SE2.hat v * a.inverse.toMatrix = SE2.hat (a.adjoint *ᵥ v)) ∧
    (a.compose b).adjoint = a.adjoint * b.adjoint := by
  have L := SE2.lawful (eps := 1) (deps := 2) one_pos
  constructor
  · intro h
    have h1 := L.adjoint_hat a v h
    have h2 := L.mul_inverse (a := a) h
    change a.toMatrix * SE2.hat v = SE2.hat (a.adjoint *ᵥ v) * a.toMatrix at h1
    change a.toMatrix * a.inverse.toMatrix = 1 at h2
    rw [h1, Matrix.mul_assoc, h2, Matrix.mul_one]
  · ext i j; fin_cases i <;> fin_cases j <;>
      simp [SE2.adjoint, SE2.compose, SE2.mk', SE2.rot, SE2.trans, SO2.compose, SO2.rotate,
        SO2.rotateFromCosSin, Matrix.mul_apply, Fin.sum_univ_three] <;> ring

/-! ## C44: `SE2` exponential and logarithm -/

/-- `log_map(exp_map(v)) = v` for rotation angles in `(-π, π)` that are zero or outside the
small-angle approximation. -/
theorem se2_log_exp {eps : ℝ} (he : 0 < eps) (v : Fin 3 → ℝ) (h1 : -Real.pi < v 2)
    (h2 : v 2 < Real.pi) (h3 : eps ≤ |v 2| ∨ v 2 = 0) : SE2.log eps (SE2.exp eps v) = v := by
  have hlog : (SE2.exp eps v).rot.log = v 2 := SO2.arg_cos_sin h1 h2.le
  rcases h3 with h3 | h0
  · have hn : ¬ |v 2| < eps := not_lt.mpr h3
    have hθ : v 2 ≠ 0 := by intro h; rw [h, abs_zero] at h3; linarith
    have hv : (SE2.exp eps v).Valid := Real.cos_sq_add_sin_sq _
    have hs : Real.sin (v 2) ≠ 0 :=
      SE2.s_ne_zero hv (by rw [hlog]; exact hθ) (by rw [hlog]; exact h2.ne)
    have hid := Real.cos_sq_add_sin_sq (v 2)
    ext i
    fin_cases i
    · simp only [SE2.log, SE2.logH, SE2.logDenominator, hlog, if_neg hn]
      simp only [SE2.exp, SE2.mk', SO2.exp, SE2.expA, SE2.expB, if_neg hn]
      simp
      field_simp
      linear_combination v 1 * hid
    · simp only [SE2.log, SE2.logH, SE2.logDenominator, hlog, if_neg hn]
      simp only [SE2.exp, SE2.mk', SO2.exp, SE2.expA, SE2.expB, if_neg hn]
      simp
      field_simp
      linear_combination -(v 0) * hid
    · simp [SE2.log, hlog]
  · have hp : |(0 : ℝ)| < eps := by simpa using he
    ext i
    fin_cases i
    · simp only [SE2.log, SE2.logH, hlog, h0, if_pos hp]
      simp [SE2.exp, SE2.mk', SO2.exp, SE2.expA, SE2.expB, h0, he]
      norm_num
    · simp only [SE2.log, SE2.logH, hlog, h0, if_pos hp]
      simp [SE2.exp, SE2.mk', SO2.exp, SE2.expA, SE2.expB, h0, he]
      norm_num
    · simp [SE2.log, hlog]

/-- `exp_map(log_map(p)) = p` for poses whose rotation angle is not π and is zero or outside the
small-angle approximation. -/
theorem se2_exp_log {eps : ℝ} (he : 0 < eps) (p : SE2) (hp : p.c ^ 2 + p.s ^ 2 = 1)
    (h1 : p.rot.log ≠ Real.pi) (h2 : eps ≤ |p.rot.log| ∨ p.rot.log = 0) :
    SE2.exp eps (SE2.log eps p) = p := by
  have hc : Real.cos p.rot.log = p.c := SO2.cos_log hp
  have hs : Real.sin p.rot.log = p.s := SO2.sin_log hp
  rcases h2 with h2 | h0
  · have hn : ¬ |p.rot.log| < eps := not_lt.mpr h2
    have hθ : p.rot.log ≠ 0 := by intro h; rw [h, abs_zero] at h2; linarith
    have hs0 := SE2.s_ne_zero hp hθ h1
    have e2 : SE2.log eps p 2 = p.rot.log := by simp [SE2.log]
    ext
    · simp only [SE2.exp, SE2.mk', e2, SE2.expA, SE2.expB, if_neg hn, hc, hs]
      simp only [SE2.log, SE2.logH, SE2.logDenominator, if_neg hn]
      simp
      field_simp
      linear_combination p.y * hp
    · simp only [SE2.exp, SE2.mk', e2, SE2.expA, SE2.expB, if_neg hn, hc, hs]
      simp only [SE2.log, SE2.logH, SE2.logDenominator, if_neg hn]
      simp
      field_simp
      linear_combination -p.x * hp
    · simp [SE2.exp, SE2.mk', e2, SO2.exp, hc]
    · simp [SE2.exp, SE2.mk', e2, SO2.exp, hs]
  · obtain ⟨hgc, hgs⟩ := SE2.c_s_of_log_zero hp h0
    have hpz : |(0 : ℝ)| < eps := by simpa using he
    have e2 : SE2.log eps p 2 = 0 := by simp [SE2.log, h0]
    ext
    · simp only [SE2.exp, SE2.mk', e2, SE2.expA, SE2.expB, if_pos hpz]
      simp [SE2.log, SE2.logH, h0, he, hgc, hgs]
      norm_num
    · simp only [SE2.exp, SE2.mk', e2, SE2.expA, SE2.expB, if_pos hpz]
      simp [SE2.log, SE2.logH, h0, he, hgc, hgs]
      norm_num
    · simp [SE2.exp, SE2.mk', e2, SO2.exp, hgc]
    · simp [SE2.exp, SE2.mk', e2, SO2.exp, hgs]

/-- How far `half_theta_by_tan_half_theta` in the small-angle branch is from the exact value. -/
theorem SE2.small_h {θ : ℝ} (hθ : |θ| ≤ 1) :
    |1 / 2 * (1 + Real.cos θ) * (1 + Real.sin θ ^ 2 / 6) - (1 - θ ^ 2 / 12)| ≤ (θ ^ 2) ^ 2 / 12 := by
  have h1 := abs_le.mp (Real.cos_bound hθ)
  have h2 := Real.one_sub_sq_div_two_le_cos (x := θ)
  have h3 := Real.cos_le_one θ
  have hs : Real.sin θ ^ 2 = 1 - Real.cos θ ^ 2 := by linarith [Real.sin_sq_add_cos_sq θ]
  have h4 : |θ| ^ 4 = (θ ^ 2) ^ 2 := by rw [← sq_abs θ]; ring
  rw [h4] at h1
  rw [hs]
  have hT : 0 ≤ θ ^ 2 := sq_nonneg θ
  have hT1 : θ ^ 2 ≤ 1 := by rw [← sq_abs]; nlinarith [abs_nonneg θ]
  generalize θ ^ 2 = T at *
  obtain ⟨d, hd⟩ : ∃ d, d = 1 - Real.cos θ := ⟨_, rfl⟩
  have hc : Real.cos θ = 1 - d := by linarith
  rw [hc] at h1 h2 h3 ⊢
  have e : 1 / 2 * (1 + (1 - d)) * (1 + (1 - (1 - d) ^ 2) / 6) - (1 - T / 12)
      = (T / 2 - d) / 6 - d ^ 2 / 3 + d ^ 3 / 12 := by ring
  rw [e]
  have hd0 : 0 ≤ d := by linarith
  have hdT : d ≤ T / 2 := by linarith
  have hd2 : d ^ 2 ≤ T ^ 2 / 4 := by nlinarith
  have hd3 : 0 ≤ d ^ 3 := by positivity
  have hd3' : d ^ 3 ≤ d ^ 2 := by nlinarith [sq_nonneg d]
  have : 0 ≤ T ^ 2 := sq_nonneg T
  rw [abs_le]
  constructor <;> nlinarith

/-- The two factors of the round trip in the small-angle branch. -/
theorem SE2.small_factors {θ h : ℝ} (hθ : |θ| ≤ 1)
    (hh : |h - (1 - θ ^ 2 / 12)| ≤ (θ ^ 2) ^ 2 / 12) :
    |(1 - θ ^ 2 / 6) * h - (-θ / 2 + θ ^ 3 / 24) * (1 / 2 * θ) - 1| ≤ θ ^ 4 / 10 ∧
    |(1 - θ ^ 2 / 6) * (1 / 2 * θ) + (-θ / 2 + θ ^ 3 / 24) * h| ≤ θ ^ 4 / 10 := by
  obtain ⟨e, rfl⟩ : ∃ e, h = (1 - θ ^ 2 / 12) + e := ⟨h - (1 - θ ^ 2 / 12), by ring⟩
  have he : |e| ≤ (θ ^ 2) ^ 2 / 12 := by simpa using hh
  have e1 : (1 - θ ^ 2 / 6) * ((1 - θ ^ 2 / 12) + e) - (-θ / 2 + θ ^ 3 / 24) * (1 / 2 * θ) - 1
      = -(θ ^ 2) ^ 2 / 144 + (1 - θ ^ 2 / 6) * e := by ring
  have e2 : (1 - θ ^ 2 / 6) * (1 / 2 * θ) + (-θ / 2 + θ ^ 3 / 24) * ((1 - θ ^ 2 / 12) + e)
      = θ / 2 * (-(θ ^ 2) ^ 2 / 144 - (1 - θ ^ 2 / 12) * e) := by ring
  rw [e1, e2]
  have e4 : θ ^ 4 = (θ ^ 2) ^ 2 := by ring
  rw [e4]
  have hT : 0 ≤ θ ^ 2 := sq_nonneg θ
  have hT1 : θ ^ 2 ≤ 1 := by rw [← sq_abs]; nlinarith [abs_nonneg θ]
  have key : ∀ k : ℝ, 0 ≤ k → k ≤ 1 → |k * e| ≤ (θ ^ 2) ^ 2 / 12 := by
    intro k h0 h1
    rw [abs_mul, abs_of_nonneg h0]
    calc k * |e| ≤ 1 * |e| := mul_le_mul_of_nonneg_right h1 (abs_nonneg e)
      _ ≤ _ := by rw [one_mul]; exact he
  have k1 := abs_le.mp (key (1 - θ ^ 2 / 6) (by linarith) (by linarith))
  have k2 := abs_le.mp (key (1 - θ ^ 2 / 12) (by linarith) (by linarith))
  have hT2 : 0 ≤ (θ ^ 2) ^ 2 := sq_nonneg _
  refine ⟨?_, ?_⟩
  · rw [abs_le]; constructor <;> linarith
  · have h3 : |-(θ ^ 2) ^ 2 / 144 - (1 - θ ^ 2 / 12) * e| ≤ (θ ^ 2) ^ 2 / 10 := by
      rw [abs_le]; constructor <;> linarith
    rw [abs_mul]
    have h4 : |θ / 2| ≤ 1 := by rw [abs_div]; norm_num; linarith
    calc |θ / 2| * _ ≤ 1 * _ := mul_le_mul_of_nonneg_right h4 (abs_nonneg _)
      _ ≤ _ := by rw [one_mul]; exact h3

theorem SE2.small_combine {m n x y K : ℝ} (hm : |m - 1| ≤ K) (hn : |n| ≤ K) :
    |m * x + n * y - x| ≤ K * (|x| + |y|) ∧ |m * x - n * y - x| ≤ K * (|x| + |y|) := by
  have h1 : |(m - 1) * x| ≤ K * |x| := by
    rw [abs_mul]; exact mul_le_mul_of_nonneg_right hm (abs_nonneg x)
  have h2 : |n * y| ≤ K * |y| := by
    rw [abs_mul]; exact mul_le_mul_of_nonneg_right hn (abs_nonneg y)
  constructor
  · have : m * x + n * y - x = (m - 1) * x + n * y := by ring
    rw [this]
    linarith [abs_add_le ((m - 1) * x) (n * y)]
  · have : m * x - n * y - x = (m - 1) * x - n * y := by ring
    rw [this]
    linarith [abs_sub ((m - 1) * x) (n * y)]

/-- In the small-angle branch `log_map(exp_map(v))` has exactly the rotation component of `v`, and
its translation differs by at most `θ⁴/10` of the size of the translation. -/
theorem se2_log_exp_near {eps : ℝ} (he : eps ≤ 1) (v : Fin 3 → ℝ) (h : |v 2| < eps) :
    SE2.log eps (SE2.exp eps v) 2 = v 2 ∧
    |SE2.log eps (SE2.exp eps v) 0 - v 0| ≤ (v 2) ^ 4 / 10 * (|v 0| + |v 1|) ∧
    |SE2.log eps (SE2.exp eps v) 1 - v 1| ≤ (v 2) ^ 4 / 10 * (|v 1| + |v 0|) := by
  have hθ : |v 2| ≤ 1 := by linarith
  have hb := abs_le.mp hθ
  have hpi := Real.pi_gt_three
  have hlog : (SE2.exp eps v).rot.log = v 2 := SO2.arg_cos_sin (by linarith) (by linarith)
  obtain ⟨f1, f2⟩ := SE2.small_factors hθ (SE2.small_h hθ)
  refine ⟨by simp [SE2.log, hlog], ?_, ?_⟩
  · refine le_trans (le_of_eq ?_) (SE2.small_combine (x := v 0) (y := v 1) f1 f2).1
    simp only [SE2.log, SE2.logH, hlog, if_pos h]
    simp only [SE2.exp, SE2.mk', SO2.exp, SE2.expA, SE2.expB, if_pos h]
    simp
    ring_nf
  · refine le_trans (le_of_eq ?_) (SE2.small_combine (x := v 1) (y := v 0) f1 f2).2
    simp only [SE2.log, SE2.logH, hlog, if_pos h]
    simp only [SE2.exp, SE2.mk', SO2.exp, SE2.expA, SE2.expB, if_pos h]
    simp
    ring_nf

/-- In the small-angle branch `exp_map(log_map(p))` has exactly the rotation of `p`, and its
translation differs by at most `θ⁴/10` of the size of the translation. -/
theorem se2_exp_log_near {eps : ℝ} (he : eps ≤ 1) (p : SE2) (hp : p.c ^ 2 + p.s ^ 2 = 1)
    (h : |p.rot.log| < eps) :
    (SE2.exp eps (SE2.log eps p)).c = p.c ∧ (SE2.exp eps (SE2.log eps p)).s = p.s ∧
    |(SE2.exp eps (SE2.log eps p)).x - p.x| ≤ p.rot.log ^ 4 / 10 * (|p.x| + |p.y|) ∧
    |(SE2.exp eps (SE2.log eps p)).y - p.y| ≤ p.rot.log ^ 4 / 10 * (|p.y| + |p.x|) := by
  have hθ : |p.rot.log| ≤ 1 := by linarith
  have hc : Real.cos p.rot.log = p.c := SO2.cos_log hp
  have hs : Real.sin p.rot.log = p.s := SO2.sin_log hp
  have hh := SE2.small_h hθ
  rw [hc, hs] at hh
  obtain ⟨f1, f2⟩ := SE2.small_factors hθ hh
  have e2 : SE2.log eps p 2 = p.rot.log := by simp [SE2.log]
  refine ⟨by simp [SE2.exp, SE2.mk', e2, SO2.exp, hc], by simp [SE2.exp, SE2.mk', e2, SO2.exp, hs],
    ?_, ?_⟩
  · refine le_trans (le_of_eq ?_) (SE2.small_combine (x := p.x) (y := p.y) f1 f2).1
    simp only [SE2.exp, SE2.mk', e2, SE2.expA, SE2.expB, if_pos h]
    simp only [SE2.log, SE2.logH, if_pos h]
    simp
    ring_nf
  · refine le_trans (le_of_eq ?_) (SE2.small_combine (x := p.y) (y := p.x) f1 f2).2
    simp only [SE2.exp, SE2.mk', e2, SE2.expA, SE2.expB, if_pos h]
    simp only [SE2.log, SE2.logH, if_pos h]
    simp
    ring_nf

/-- `log_map` divides by zero exactly at the rotations by π (`[x, y, -1, 0]`): the code computes
`0 * (π / 0)`, which is not a number.  At all other legal poses the quotient is well defined. -/
theorem se2_log_divides_by_zero_iff {eps : ℝ} (he : 0 < eps) (he' : eps ≤ 1) (p : SE2)
    (hp : p.c ^ 2 + p.s ^ 2 = 1) :
    SE2.logDenominator eps p = 0 ↔ (p.c = -1 ∧ p.s = 0) := by
  have hc : Real.cos p.rot.log = p.c := SO2.cos_log hp
  constructor
  · intro h
    unfold SE2.logDenominator at h
    split at h
    · norm_num at h
    · rename_i hn
      refine ⟨?_, h⟩
      have hθ0 : p.rot.log ≠ 0 := by intro h0; apply hn; simpa [h0] using he
      by_cases hpi : p.rot.log = Real.pi
      · rw [← hc, hpi, Real.cos_pi]
      · exact absurd h (SE2.s_ne_zero hp hθ0 hpi)
  · rintro ⟨h1, h2⟩
    have hl : p.rot.log = Real.pi := by
      unfold SO2.log SO2.atan2
      rw [Complex.arg_eq_pi_iff]
      simp [SE2.rot, h1, h2]
    have hn : ¬ |p.rot.log| < eps := by
      rw [hl, abs_of_pos Real.pi_pos]; linarith [Real.pi_gt_three]
    simp [SE2.logDenominator, hn, h2]

/-- Non-vacuity for the round trip theorems: a quarter turn with translation. -/
example : ∃ p : SE2, p.c ^ 2 + p.s ^ 2 = 1 ∧ p.rot.log ≠ Real.pi ∧ (1 / 1000 : ℝ) ≤ |p.rot.log| ∧
    p.x ≠ 0 := by
  refine ⟨⟨1, 2, 0, 1⟩, by norm_num, ?_, ?_, by norm_num⟩
  · have : (⟨0, 1⟩ : SO2).log = Real.pi / 2 := Complex.arg_I
    change (⟨0, 1⟩ : SO2).log ≠ Real.pi
    rw [this]; intro h'; linarith [Real.pi_gt_three]
  · have : (⟨0, 1⟩ : SO2).log = Real.pi / 2 := Complex.arg_I
    change (1 / 1000 : ℝ) ≤ |(⟨0, 1⟩ : SO2).log|
    rw [this, abs_of_pos (by positivity)]; linarith [Real.pi_gt_three]

example : ∃ v : Fin 3 → ℝ, |v 2| < (1 / 100 : ℝ) ∧ v 2 ≠ 0 ∧ v 0 ≠ 0 :=
  ⟨![1, 0, 1 / 1000], by simp; norm_num, by simp, by simp⟩

end Verif.Geometry
