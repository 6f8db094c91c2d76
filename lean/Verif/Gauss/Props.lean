import Verif.Gauss.Model
import Verif.Geometry.SpatialJac
import Verif.Geometry.PlanarJac
import Verif.Geometry.SpatialProps
import Mathlib.LinearAlgebra.Matrix.PosDef
import Mathlib.Tactic

/-!
# Gaussians on manifolds (C55)
-/

namespace Verif.Gauss
open Verif.Geometry Matrix

/-! ## Specification -/

/-- Legal values: unit cosine/sine pairs, rotation matrices. -/
def Var.Valid : Var → Prop
  | ⟨.vector _, _⟩ => True
  | ⟨.point2, _⟩ => True
  | ⟨.point3, _⟩ => True
  | ⟨.so2, a⟩ => SO2.c a ^ 2 + SO2.s a ^ 2 = 1
  | ⟨.se2, a⟩ => SE2.c a ^ 2 + SE2.s a ^ 2 = 1
  | ⟨.so3, R⟩ => (show M3 from R)ᵀ * (show M3 from R) = 1 ∧ (show M3 from R).det = 1
  | ⟨.se3, g⟩ => (SE3.R g)ᵀ * SE3.R g = 1 ∧ (SE3.R g).det = 1

/-- The tangent vectors at which `local` undoes `retract` (C48): rotations by less than π that are
zero or beyond the small-angle threshold (where the code truncates series), and for `SO3` and `SE3`
not, within the `near_pi` range, about the axes `(0, ±1, ±1)` (where the code divides by zero). -/
def Domain (e : Eps) : (k : Kind) → (Fin k.dof → ℝ) → Prop
  | .vector _, _ => True
  | .point2, _ => True
  | .point3, _ => True
  | .so2, d => -Real.pi < d (0 : Fin 1) ∧ d (0 : Fin 1) ≤ Real.pi
  | .se2, d => -Real.pi < d (2 : Fin 3) ∧ d (2 : Fin 3) < Real.pi ∧
      (e.near ≤ |d (2 : Fin 3)| ∨ d (2 : Fin 3) = 0)
  | .so3, d => (e.near ≤ norm3 d ∧ norm3 d < Real.pi ∧
      (1 + Real.cos (norm3 d) ≤ e.npi → ¬ (d (0 : Fin 3) = 0 ∧ (d (1 : Fin 3) = d (2 : Fin 3) ∨
        d (1 : Fin 3) = -d (2 : Fin 3))))) ∨ d = 0
  | .se3, d =>
      (e.near ≤ norm3 ![d (3 : Fin 6), d (4 : Fin 6), d (5 : Fin 6)] ∧
        norm3 ![d (3 : Fin 6), d (4 : Fin 6), d (5 : Fin 6)] < Real.pi ∧
        (1 + Real.cos (norm3 ![d (3 : Fin 6), d (4 : Fin 6), d (5 : Fin 6)]) ≤ e.npi →
          ¬ (d (3 : Fin 6) = 0 ∧ (d (4 : Fin 6) = d (5 : Fin 6) ∨ d (4 : Fin 6) = -d (5 : Fin 6))))) ∨
      (d (3 : Fin 6) = 0 ∧ d (4 : Fin 6) = 0 ∧ d (5 : Fin 6) = 0)

/-- Sane thresholds. -/
structure Eps.Legal (e : Eps) : Prop where
  near : 0 < e.near
  npi0 : 0 ≤ e.npi
  npi : e.npi < 2

/-- The class's matrix representation and which of its values are legal. -/
noncomputable def emb : (k : Kind) → (m : ℕ) × Embedding k.dof m k.Elem
  | .vector n => ⟨_, Vec.emb (n := n)⟩
  | .point2 => ⟨_, Vec.emb (n := 2)⟩
  | .point3 => ⟨_, Vec.emb (n := 3)⟩
  | .so2 => ⟨_, SO2.emb⟩
  | .se2 => ⟨_, SE2.emb⟩
  | .so3 => ⟨_, SO3.emb⟩
  | .se3 => ⟨_, SE3.emb⟩

/-- The pairs at which `retract` undoes `local` (C48), in terms of the relative pose `a⁻¹ b`. -/
def Related (e : Eps) : (k : Kind) → k.Elem → k.Elem → Prop
  | .vector _, _, _ => True
  | .point2, _, _ => True
  | .point3, _, _ => True
  | .so2, _, _ => True
  | .se2, a, b =>
      (SE2.compose (SE2.inverse a) b).rot.log ≠ Real.pi ∧
      (e.near ≤ |(SE2.compose (SE2.inverse a) b).rot.log| ∨
        (SE2.compose (SE2.inverse a) b).rot.log = 0)
  | .so3, A, B =>
      (e.near ≤ SO3.theta ((show M3 from A)ᵀ * (show M3 from B)) ∧
        (1 + SO3.cosine ((show M3 from A)ᵀ * (show M3 from B)) ≤ e.npi →
          ¬ SO3.TieAxis ((show M3 from A)ᵀ * (show M3 from B)))) ∨ A = B
  | .se3, a, b =>
      (e.near ≤ SO3.theta ((SE3.R a)ᵀ * SE3.R b) ∧
        (1 + SO3.cosine ((SE3.R a)ᵀ * SE3.R b) ≤ e.npi → ¬ SO3.TieAxis ((SE3.R a)ᵀ * SE3.R b))) ∨
      SE3.R a = SE3.R b

/-! ## Lemmas -/

theorem jexpOf_det (s k q : ℝ) (w : V3) :
    (SO3.jexpOf s k q w).det = (s + q * dot3 w w) * (s ^ 2 + k ^ 2 * dot3 w w) := by
  rw [Matrix.det_fin_three]
  simp [SO3.jexpOf, SO3.hat, outer3, dot3]
  ring

theorem one_sub_cos_pos {θ : ℝ} (h0 : 0 < θ) (h1 : θ ≤ Real.pi) : 0 < 1 - Real.cos θ := by
  have h : Real.cos θ ≠ 1 := by
    intro hc
    have := (Real.cos_eq_one_iff_of_lt_of_lt (by linarith [Real.pi_pos])
      (by linarith [Real.pi_pos])).mp hc
    linarith
  have := Real.cos_le_one θ
  exact sub_pos.mpr (lt_of_le_of_ne this h)

theorem so3_jexpOf_det_pos {eps : ℝ} (he : 0 < eps) {w : V3} (h : norm3 w ≤ Real.pi) :
    (SO3.jexp eps w).det ≠ 0 := by
  have hn := SO3.norm3_nonneg w
  have h2 := SO3.norm3_sq w
  simp only [SO3.jexp]
  rw [jexpOf_det, ← h2]
  by_cases hs : norm3 w < eps
  · have hS : 0 < SO3.expS eps (norm3 w) := by
      simp only [SO3.expS, SO3.expC, if_pos hs]
      have : 0 < 8 / (4 + norm3 w ^ 2) := by positivity
      linarith
    have hQ : SO3.expQ eps (norm3 w) = 0 := by simp [SO3.expQ, hs]
    rw [hQ]
    positivity
  · have h0 : 0 < norm3 w := lt_of_lt_of_le he (not_lt.mp hs)
    have hc := one_sub_cos_pos h0 h
    have hsc := Real.cos_sq_add_sin_sq (norm3 w)
    have e1 : SO3.expS eps (norm3 w) + SO3.expQ eps (norm3 w) * norm3 w ^ 2 = 1 := by
      simp only [SO3.expS, SO3.expQ, if_neg hs]; field_simp; ring
    have e2 : SO3.expS eps (norm3 w) ^ 2 + SO3.expK eps (norm3 w) ^ 2 * norm3 w ^ 2
        = 2 * (1 - Real.cos (norm3 w)) / norm3 w ^ 2 := by
      simp only [SO3.expS, SO3.expK, SO3.expC, if_neg hs]; field_simp
      linear_combination hsc
    rw [e1, e2]
    positivity

theorem se3_jexp_det {eps : ℝ} (he : 0 < eps) {x : Fin 6 → ℝ} (h : norm3 (SE3.ang x) ≤ Real.pi) :
    (SE3.jexp eps x).det ≠ 0 := by
  have hJ := so3_jexpOf_det_pos he h
  intro hz
  obtain ⟨v, hv, hv0⟩ := Matrix.exists_mulVec_eq_zero_iff.mpr hz
  obtain ⟨hl, ha⟩ := SE3.jexp_mulVec eps x v
  have hinj : ∀ u : V3, SO3.jexp eps (SE3.ang x) *ᵥ u = 0 → u = 0 := by
    intro u hu
    by_contra hne
    exact hJ (Matrix.exists_mulVec_eq_zero_iff.mp ⟨u, hne, hu⟩)
  rw [hv0] at hl ha
  have hz3 : SE3.ang (0 : Fin 6 → ℝ) = 0 := by ext i; fin_cases i <;> simp [SE3.ang]
  have hz4 : SE3.lin (0 : Fin 6 → ℝ) = 0 := by ext i; fin_cases i <;> simp [SE3.lin]
  have ha0 := hinj _ (ha.symm.trans hz3)
  rw [hz4, ha0, Matrix.mulVec_zero, add_zero] at hl
  have hq : SO3.jexp eps (SE3.ang x) = SO3.jexpOf (SO3.expS eps (norm3 (SE3.ang x)))
      (SO3.expK eps (norm3 (SE3.ang x)))
      (if norm3 (SE3.ang x) < eps then 0 else SE3.expQt eps (norm3 (SE3.ang x))) (SE3.ang x) := by
    simp only [SO3.jexp, SO3.expQ, SE3.expQt]
    split_ifs <;> rfl
  have hl0 := hinj (SE3.lin v) (by rw [hq]; exact hl.symm)
  apply hv
  funext i
  fin_cases i
  · exact congrFun hl0 0
  · exact congrFun hl0 1
  · exact congrFun hl0 2
  · exact congrFun ha0 0
  · exact congrFun ha0 1
  · exact congrFun ha0 2

theorem se2_dexp_det {eps : ℝ} (he : 0 < eps) {v : Fin 3 → ℝ} (h : |v 2| ≤ Real.pi)
    (h1 : eps ≤ |v 2| ∨ v 2 = 0) : (SE2.dexp eps v).det ≠ 0 := by
  have hd : (SE2.dexp eps v).det = SE2.expA eps (v 2) ^ 2 + SE2.expB eps (v 2) ^ 2 := by
    rw [Matrix.det_fin_three]
    simp [SE2.dexp]; ring
  rw [hd]
  rcases h1 with h1 | h1
  · have hv : v 2 ≠ 0 := fun h0 => by rw [h0, abs_zero] at h1; linarith
    have hc : 0 < 1 - Real.cos (v 2) := by
      rw [← Real.cos_abs]
      exact one_sub_cos_pos (abs_pos.mpr hv) h
    have hsc := Real.cos_sq_add_sin_sq (v 2)
    have e : SE2.expA eps (v 2) ^ 2 + SE2.expB eps (v 2) ^ 2
        = 2 * (1 - Real.cos (v 2)) / v 2 ^ 2 := by
      simp only [SE2.expA, SE2.expB, if_neg (not_lt.mpr h1)]; field_simp
      linear_combination hsc
    rw [e]
    positivity
  · simp [SE2.expA, SE2.expB, h1, he]

theorem allclose_of_symm {n : ℕ} {p : Matrix (Fin n) (Fin n) ℝ} (h : pᵀ = p) : AllcloseSymm p := by
  intro i j
  have e : p i j = p j i := by
    conv_lhs => rw [← h]
    rfl
  rw [e, sub_self, abs_zero]
  positivity

theorem construct_ok {k : Kind} (b : k.Elem) {P : Matrix (Fin k.dof) (Fin k.dof) ℝ}
    (h : AllcloseSymm P) : construct [⟨k, b⟩] ⟨k.dof, P⟩ = .ok ⟨[⟨k, b⟩], ⟨k.dof, P⟩⟩ := by
  simp [construct, h]

theorem localGaussian_single (e : Eps) (k : Kind) (a b : k.Elem)
    (P : Matrix (Fin k.dof) (Fin k.dof) ℝ) (r : Bool) :
    localGaussian e ⟨k, a⟩ ⟨[⟨k, b⟩], ⟨k.dof, P⟩⟩ r = .ok (localOf e k a b P r) := by
  simp [localGaussian]

/-- `local` undoes `retract` on the domain (C48). -/
theorem local_retract_kind {e : Eps} (he : e.Legal) (k : Kind) (a : k.Elem)
    (ha : Var.Valid ⟨k, a⟩) (d : Fin k.dof → ℝ) (hd : Domain e k d) :
    (k.ops e).local a ((k.ops e).retract a d) = d := by
  cases k with
  | vector n => exact (vec_local_retract n a a d).2.1
  | point2 => exact (vec_local_retract 2 a a d).2.1
  | point3 => exact (vec_local_retract 3 a a d).2.1
  | so2 => exact (so2_local_retract a a ha ha d).2 hd.1 hd.2
  | se2 => exact (se2_local_retract he.near a a ha ha d).2 hd.1 hd.2.1 hd.2.2
  | so3 =>
    rcases hd with hd | hd
    · exact (so3_local_retract_partial he.near he.npi0 ha ha d).2.2.1 hd.1 hd.2.1 hd.2.2
    · subst hd
      exact (so3_local_retract_partial he.near he.npi0 ha ha 0).2.2.2 he.npi
  | se3 => exact (se3_local_retract_partial he.near he.npi0 he.npi ha ha d).2 hd

/-- The Jacobian of the exponential is invertible on the domain. -/
theorem jexp_det {e : Eps} (he : e.Legal) (k : Kind) (d : Fin k.dof → ℝ) (hd : Domain e k d) :
    IsUnit (k.jexp e d).det := by
  rw [isUnit_iff_ne_zero]
  cases k with
  | vector n => simp [Kind.jexp]
  | point2 => simp [Kind.jexp]
  | point3 => simp [Kind.jexp]
  | so2 =>
    have h : (!![1] : Matrix (Fin 1) (Fin 1) ℝ).det ≠ 0 := by simp
    exact h
  | se2 => exact se2_dexp_det he.near (abs_le.mpr ⟨hd.1.le, hd.2.1.le⟩) hd.2.2
  | so3 =>
    refine so3_jexpOf_det_pos he.near ?_
    rcases hd with hd | hd
    · exact hd.2.1.le
    · exact (SO3.norm3_eq_zero.mpr hd).le.trans Real.pi_pos.le
  | se3 =>
    refine se3_jexp_det he.near ?_
    rcases hd with hd | hd
    · exact hd.2.1.le
    · have h0 : SE3.ang d = 0 := by
        ext i; fin_cases i
        · exact hd.1
        · exact hd.2.1
        · exact hd.2.2
      rw [h0, SO3.norm3_eq_zero.mpr rfl]; exact Real.pi_pos.le

theorem congr_inv {n : ℕ} {J P : Matrix (Fin n) (Fin n) ℝ} (h : IsUnit J.det) :
    Jᵀ * (((J⁻¹)ᵀ * P) * J⁻¹) * J = P ∧ ((J⁻¹)ᵀ * (Jᵀ * P * J)) * J⁻¹ = P := by
  have h1 : J⁻¹ * J = 1 := Matrix.nonsing_inv_mul _ h
  have h2 : J * J⁻¹ = 1 := Matrix.mul_nonsing_inv _ h
  have h1t : Jᵀ * (J⁻¹)ᵀ = 1 := by rw [← Matrix.transpose_mul, h1, Matrix.transpose_one]
  have h2t : (J⁻¹)ᵀ * Jᵀ = 1 := by rw [← Matrix.transpose_mul, h2, Matrix.transpose_one]
  constructor
  · calc _ = (Jᵀ * (J⁻¹)ᵀ) * P * (J⁻¹ * J) := by simp only [Matrix.mul_assoc]
      _ = P := by rw [h1t, h1, Matrix.one_mul, Matrix.mul_one]
  · calc _ = ((J⁻¹)ᵀ * Jᵀ) * P * (J * J⁻¹) := by simp only [Matrix.mul_assoc]
      _ = P := by rw [h2t, h2, Matrix.one_mul, Matrix.mul_one]

/-! ## The theorems -/

/-- `local_gaussian` undoes `retract_gaussian`: for every class, every variable, every tangent
Gaussian with a symmetric precision whose mean is in the domain of C48, the constructor's checks
pass and the tangent mean and precision come back exactly (and with `return_mean=False`, the
information vector `P m`). -/
theorem local_retract_gaussian {e : Eps} (he : e.Legal) (v : Var) (hv : v.Valid)
    (m : Fin v.kind.dof → ℝ) (P : Matrix (Fin v.kind.dof) (Fin v.kind.dof) ℝ) (hP : Pᵀ = P)
    (hm : Domain e v.kind m) :
    ∃ g, retractGaussian e v m P = .ok g ∧
      localGaussian e v g = .ok ⟨m, P⟩ ∧ localGaussian e v g false = .ok ⟨P *ᵥ m, P⟩ := by
  obtain ⟨k, a⟩ := v
  have hdet := jexp_det he k m hm
  have hsym : AllcloseSymm ((((k.jexp e m)⁻¹)ᵀ * P) * (k.jexp e m)⁻¹) := by
    refine allclose_of_symm ?_
    rw [Matrix.transpose_mul, Matrix.transpose_mul, Matrix.transpose_transpose, hP,
      Matrix.mul_assoc]
  refine ⟨_, construct_ok _ hsym, ?_, ?_⟩
  all_goals
    rw [localGaussian_single]
    simp only [localOf]
    rw [local_retract_kind he k a hv m hm, (congr_inv hdet).1]
    rfl

/-- The relative pose is in the domain, so `local` and then `retract` is the identity. -/
theorem retract_local_kind {e : Eps} (he : e.Legal) (k : Kind) (a b : k.Elem)
    (ha : Var.Valid ⟨k, a⟩) (hb : Var.Valid ⟨k, b⟩) (hr : Related e k a b) :
    (k.ops e).retract a ((k.ops e).local a b) = b ∧ IsUnit (k.jexp e ((k.ops e).local a b)).det := by
  cases k with
  | vector n => exact ⟨(vec_local_retract n a b a).1, jexp_det he (.vector n) _ trivial⟩
  | point2 => exact ⟨(vec_local_retract 2 a b a).1, jexp_det he .point2 _ trivial⟩
  | point3 => exact ⟨(vec_local_retract 3 a b a).1, jexp_det he .point3 _ trivial⟩
  | so2 =>
    refine ⟨(so2_local_retract a b ha hb 0).1, ?_⟩
    rw [isUnit_iff_ne_zero]
    have h : (!![1] : Matrix (Fin 1) (Fin 1) ℝ).det ≠ 0 := by simp
    exact h
  | se2 =>
    refine ⟨(se2_local_retract he.near a b ha hb 0).1 hr.1 hr.2, ?_⟩
    refine jexp_det he .se2 _ ?_
    have h := SO2.log_mem (SE2.compose (SE2.inverse a) b).rot
    exact ⟨h.1, lt_of_le_of_ne h.2 hr.1, hr.2⟩
  | so3 =>
    rw [isUnit_iff_ne_zero]
    rcases hr with hr | hr
    · refine ⟨(so3_local_retract_partial he.near he.npi0 ha hb 0).1 hr.1 hr.2, ?_⟩
      have hAB : SO3.Valid ((show M3 from a)ᵀ * (show M3 from b)) :=
        SO3.Valid.mul (SO3.Valid.transpose ha) hb
      have h := so3_exp_log_partial he.near he.npi0 hAB hr.1 hr.2
      exact so3_jexpOf_det_pos he.near (h.2.1.le.trans h.2.2)
    · subst hr
      refine ⟨(so3_local_retract_partial he.near he.npi0 ha hb 0).2.1 rfl he.npi, ?_⟩
      have h0 : (SO3.ops e.near e.dnear e.npi).local a a = 0 := by
        change SO3.log e.near e.npi ((show M3 from a)ᵀ * (show M3 from a)) = 0
        rw [ha.1, (SE3.log_of_one he.npi).1]
      have := jexp_det he .so3 (0 : V3) (Or.inr rfl)
      rw [isUnit_iff_ne_zero] at this
      change (SO3.jexp e.near ((SO3.ops e.near e.dnear e.npi).local a a)).det ≠ 0
      rw [h0]
      exact this
  | se3 =>
    rw [isUnit_iff_ne_zero]
    have hAB : SO3.Valid ((SE3.R a)ᵀ * SE3.R b) := SO3.Valid.mul (SO3.Valid.transpose ha) hb
    have hang : norm3 (SE3.ang ((SE3.ops e.near e.dnear e.npi).local a b))
        = norm3 (SO3.log e.near e.npi ((SE3.R a)ᵀ * SE3.R b)) := by
      change norm3 (SE3.ang (SE3.log e.near e.npi _)) = _
      rw [SE3.log, SE3.ang_join]
      rfl
    refine ⟨(se3_local_retract_partial he.near he.npi0 he.npi ha hb 0).1 ?_,
      se3_jexp_det he.near ?_⟩
    · rcases hr with hr | hr
      · exact Or.inl hr
      · exact Or.inr hr
    · refine hang.le.trans ?_
      rcases hr with hr | hr
      · have h := so3_exp_log_partial he.near he.npi0 hAB hr.1 hr.2
        exact h.2.1.le.trans h.2.2
      · rw [← hr, ha.1, (SE3.log_of_one he.npi).1, SO3.norm3_eq_zero.mpr rfl]
        exact Real.pi_pos.le

/-- `retract_gaussian` undoes `local_gaussian`: every Gaussian over one variable of the same class
that the constructor accepts comes back, mean and precision. -/
theorem retract_local_gaussian {e : Eps} (he : e.Legal) (k : Kind) (a b : k.Elem)
    (ha : Var.Valid ⟨k, a⟩) (hb : Var.Valid ⟨k, b⟩) (hr : Related e k a b) (P : Prec) (g : Gaussian)
    (hg : construct [⟨k, b⟩] P = .ok g) :
    ∃ t, localGaussian e ⟨k, a⟩ g = .ok t ∧ retractGaussian e ⟨k, a⟩ t.vec t.mat = .ok g := by
  obtain ⟨n, P⟩ := P
  simp only [construct, List.map_cons, List.map_nil, List.sum_cons, List.sum_nil, add_zero] at hg
  split_ifs at hg with h1 h2
  have h1 : n = k.dof := by simpa using h1
  subst h1
  obtain ⟨hret, hdet⟩ := retract_local_kind he k a b ha hb hr
  simp only [Except.ok.injEq] at hg
  subst hg
  refine ⟨_, localGaussian_single e k a b P true, ?_⟩
  simp only [retractGaussian, localOf, if_true]
  rw [hret, (congr_inv hdet).2]
  exact construct_ok b h2

/-- Where the Jacobian that `exp_map` returns is its derivative: off the threshold for `SO3`, and
at zero rotation or beyond the threshold for `SE2` and `SE3`. -/
def Smooth (e : Eps) : (k : Kind) → (Fin k.dof → ℝ) → Prop
  | .vector _, _ => True
  | .point2, _ => True
  | .point3, _ => True
  | .so2, _ => True
  | .se2, d => e.near < |d (2 : Fin 3)| ∨ d (2 : Fin 3) = 0
  | .so3, d => norm3 d ≠ e.near
  | .se3, d => e.near < norm3 ![d (3 : Fin 6), d (4 : Fin 6), d (5 : Fin 6)] ∨
      (d (3 : Fin 6) = 0 ∧ d (4 : Fin 6) = 0 ∧ d (5 : Fin 6) = 0)

theorem vec_exp_jac (n : ℕ) (d : Fin n → ℝ) :
    (Vec.emb n).HasTangentJac (Vec.ops n).exp d (1 : Matrix (Fin n) (Fin n) ℝ) := by
  intro δ
  refine ⟨fun _ => trivial, fun i j => ?_⟩
  have e1 : ∀ t : ℝ, (Vec.emb n).toMatrix ((Vec.ops n).exp (d + t • δ)) i j
      = (1 + Vec.hat d) i j + t * Vec.hat δ i j := by
    intro t
    simp only [Vec.emb, Vec.ops, Vec.hat_add, Vec.hat_smul]
    simp [add_assoc]
  have e2 : (Vec.emb n).toMatrix ((Vec.ops n).exp (d + (0 : ℝ) • δ)) * Vec.hat δ = Vec.hat δ := by
    simp only [Vec.emb, Vec.ops, Matrix.add_mul, Matrix.one_mul, Vec.hat_mul_hat, add_zero]
  simp only [e1]
  rw [Matrix.one_mulVec]
  have e3 := congrFun (congrFun e2 i) j
  refine HasDerivAt.congr_deriv ?_ e3.symm
  have := ((hasDerivAt_id (0 : ℝ)).mul_const (Vec.hat δ i j)).const_add ((1 + Vec.hat d) i j)
  simpa using this

theorem so2_exp_jac (d : Fin 1 → ℝ) : SO2.emb.HasTangentJac SO2.ops.exp d !![1] := by
  intro δ
  refine ⟨fun t => Real.cos_sq_add_sin_sq _, ?_⟩
  have hlin : HasDerivAt (fun t : ℝ => d 0 + t * δ 0) (δ 0) 0 := by
    simpa using ((hasDerivAt_id (0 : ℝ)).mul_const (δ 0)).const_add (d 0)
  have hcos : HasDerivAt (fun t : ℝ => Real.cos (d 0 + t * δ 0)) (-(Real.sin (d 0) * δ 0)) 0 := by
    simpa using hlin.cos
  have hsin : HasDerivAt (fun t : ℝ => Real.sin (d 0 + t * δ 0)) (Real.cos (d 0) * δ 0) 0 := by
    simpa using hlin.sin
  intro i j
  fin_cases i <;> fin_cases j
  · refine hcos.congr_deriv ?_
    simp [SO2.emb, SO2.toMatrix, SO2.ops, SO2.exp, SO2.hat, Matrix.mul_apply]
    try (left; rfl)
  · refine hsin.fun_neg.congr_deriv ?_
    simp [SO2.emb, SO2.toMatrix, SO2.ops, SO2.exp, SO2.hat, Matrix.mul_apply]
    try (left; rfl)
  · refine hsin.congr_deriv ?_
    simp [SO2.emb, SO2.toMatrix, SO2.ops, SO2.exp, SO2.hat, Matrix.mul_apply]
    try (left; rfl)
  · refine hcos.congr_deriv ?_
    simp [SO2.emb, SO2.toMatrix, SO2.ops, SO2.exp, SO2.hat, Matrix.mul_apply]
    try (left; rfl)

theorem exp_jac_kind {e : Eps} (he : e.Legal) (k : Kind) (d : Fin k.dof → ℝ) (hd : Smooth e k d) :
    (emb k).2.HasTangentJac (k.ops e).exp d (k.jexp e d) := by
  cases k with
  | vector n => exact vec_exp_jac n d
  | point2 => exact vec_exp_jac 2 d
  | point3 => exact vec_exp_jac 3 d
  | so2 => exact so2_exp_jac d
  | se2 => exact se2_exp_jac_partial he.near d hd
  | so3 => exact so3_exp_jac he.near hd
  | se3 => exact se3_exp_jac_partial he.near hd

theorem congr_form {n : ℕ} (J P : Matrix (Fin n) (Fin n) ℝ) (δ ε : Fin n → ℝ) :
    δ ⬝ᵥ ((Jᵀ * P * J) *ᵥ ε) = (J *ᵥ δ) ⬝ᵥ (P *ᵥ (J *ᵥ ε)) := by
  rw [Matrix.mul_assoc, ← Matrix.mulVec_mulVec, ← Matrix.mulVec_mulVec, Matrix.dotProduct_mulVec,
    Matrix.vecMul_transpose]

/-- The precision is the one of the Gaussian, expressed in tangent coordinates: two displacements
`δ`, `ε` of the tangent vector move the group element along `ξ`, `η`, and the tangent precision
pairs `δ, ε` as the Gaussian's precision pairs `ξ, η` (eqn. 55 of the paper the code cites). -/
theorem local_gaussian_precision_partial {e : Eps} (he : e.Legal) (k : Kind) (a b : k.Elem)
    (P : Matrix (Fin k.dof) (Fin k.dof) ℝ) (hs : Smooth e k ((k.ops e).local a b)) :
    ∃ t, localGaussian e ⟨k, a⟩ ⟨[⟨k, b⟩], ⟨k.dof, P⟩⟩ = .ok t ∧ t.vec = (k.ops e).local a b ∧
      ∀ δ ε : Fin k.dof → ℝ, ∃ ξ η,
        (emb k).2.Tangent (fun s => (k.ops e).exp (t.vec + s • δ)) ξ ∧
        (emb k).2.Tangent (fun s => (k.ops e).exp (t.vec + s • ε)) η ∧
        δ ⬝ᵥ (t.mat *ᵥ ε) = ξ ⬝ᵥ (P *ᵥ η) := by
  refine ⟨_, localGaussian_single e k a b P true, rfl, fun δ ε => ?_⟩
  have hj := exp_jac_kind he k _ hs
  exact ⟨_, _, hj δ, hj ε, congr_form _ _ _ _⟩

/-- Symmetry and positive definiteness pass in both directions. -/
theorem gaussian_posdef {e : Eps} (he : e.Legal) (k : Kind) (a b : k.Elem)
    (m : Fin k.dof → ℝ) (hm : Domain e k m) (P : Matrix (Fin k.dof) (Fin k.dof) ℝ) (hP : P.PosDef) :
    (∃ g Q, retractGaussian e ⟨k, a⟩ m P = .ok g ∧ g.prec = ⟨k.dof, Q⟩ ∧ Q.PosDef) ∧
    (Domain e k ((k.ops e).local a b) →
      ∃ t, localGaussian e ⟨k, a⟩ ⟨[⟨k, b⟩], ⟨k.dof, P⟩⟩ = .ok t ∧ t.mat.PosDef) := by
  have key : ∀ J : Matrix (Fin k.dof) (Fin k.dof) ℝ, IsUnit J.det → (Jᵀ * P * J).PosDef := by
    intro J hJ
    have hinj : Function.Injective J.mulVec :=
      Matrix.mulVec_injective_iff_isUnit.mpr ((Matrix.isUnit_iff_isUnit_det _).mpr hJ)
    have h := hP.conjTranspose_mul_mul_same (B := J) hinj
    rwa [Matrix.conjTranspose_eq_transpose_of_trivial] at h
  constructor
  · have hq : ((((k.jexp e m)⁻¹)ᵀ * P) * (k.jexp e m)⁻¹).PosDef := by
      refine key _ ?_
      rw [Matrix.det_nonsing_inv]
      exact (jexp_det he k m hm).ringInverse
    have hsym := hq.1
    refine ⟨_, _, construct_ok _ (allclose_of_symm ?_), rfl, hq⟩
    rw [Matrix.IsHermitian, Matrix.conjTranspose_eq_transpose_of_trivial] at hsym
    exact hsym
  · intro hd
    exact ⟨_, localGaussian_single e k a b P true, key _ (jexp_det he k _ hd)⟩

/-- The errors: not exactly one mean, or a mean of another class. -/
theorem local_gaussian_rejects (e : Eps) (v : Var) (g : Gaussian) (r : Bool) :
    (g.mean.length ≠ 1 → localGaussian e v g r = .error .notOneMean) ∧
    (∀ m, g.mean = [m] → m.kind.cls ≠ v.kind.cls →
      localGaussian e v g r = .error .classMismatch) := by
  constructor
  · intro h
    match hg : g.mean with
    | [] => simp [localGaussian, hg]
    | [_] => simp [hg] at h
    | _ :: _ :: _ => simp [localGaussian, hg]
  · intro m hg hc
    simp [localGaussian, hg, hc]

/-- The code violates the property for `SE2` in the small-angle branch, because of the Jacobian
that `exp_map` returns there (`se2_exp_jac_wrong`): the tangent precision of the standard Gaussian
at the pose `exp(1, 0, θ)`, as seen from the identity, is not the one of eqn. 55. -/
theorem local_gaussian_precision_wrong {eps θ : ℝ} (h0 : 0 < θ) (h1 : θ < eps) (h2 : eps ≤ 1) :
    let lam := ((SE2.dexp eps ![1, 0, θ])ᵀ * 1) * SE2.dexp eps ![1, 0, θ]
    ¬ ∃ ξ, SE2.emb.Tangent (fun s => SE2.exp eps (![1, 0, θ] + s • ![0, 0, 1])) ξ ∧
      ![0, 0, 1] ⬝ᵥ (lam *ᵥ ![0, 0, 1]) = ξ ⬝ᵥ ((1 : Matrix (Fin 3) (Fin 3) ℝ) *ᵥ ξ) := by
  rintro lam ⟨ξ, ⟨_, hξ⟩, hq⟩
  have habs : |θ| < eps := by rw [abs_of_pos h0]; exact h1
  have hlin : HasDerivAt (fun t : ℝ => θ + t) 1 0 := by
    simpa using (hasDerivAt_id (0 : ℝ)).const_add θ
  have hcont : ContinuousAt (fun t : ℝ => |θ + t|) 0 := hlin.continuousAt.abs
  have hev : ∀ᶠ t : ℝ in nhds 0, |θ + t| < eps :=
    hcont.eventually_lt continuousAt_const (by simpa using habs)
  have e2 : ∀ t : ℝ, (![1, 0, θ] + t • ![0, 0, 1] : Fin 3 → ℝ) = ![1, 0, θ + t] := by
    intro t; ext i; fin_cases i <;> simp
  have hx : HasDerivAt (fun t : ℝ => SE2.emb.toMatrix
      (SE2.exp eps (![1, 0, θ] + t • ![0, 0, 1])) 0 2) (-θ / 3) 0 := by
    refine ((((hlin.fun_pow 2).div_const 6).const_sub 1).congr_deriv ?_).congr_of_eventuallyEq ?_
    · simp; ring
    · filter_upwards [hev] with t ht
      rw [e2]
      simp [SE2.emb, SE2.toMatrix, SE2.exp, SE2.mk', SE2.expA, ht]
  have hy : HasDerivAt (fun t : ℝ => SE2.emb.toMatrix
      (SE2.exp eps (![1, 0, θ] + t • ![0, 0, 1])) 1 2) (1 / 2 - θ ^ 2 / 8) 0 := by
    refine (((hlin.div_const 2).fun_sub ((hlin.fun_pow 3).div_const 24)).congr_deriv
      ?_).congr_of_eventuallyEq ?_
    · simp; ring
    · filter_upwards [hev] with t ht
      rw [e2]
      simp [SE2.emb, SE2.toMatrix, SE2.exp, SE2.mk', SE2.expB, ht]
      ring
  have hs : HasDerivAt (fun t : ℝ => SE2.emb.toMatrix
      (SE2.exp eps (![1, 0, θ] + t • ![0, 0, 1])) 1 0) (Real.cos θ) 0 := by
    have := hlin.sin
    simp only [add_zero, mul_one] at this
    refine this.congr_of_eventuallyEq (Filter.Eventually.of_forall fun t => ?_)
    simp only [e2]
    simp [SE2.emb, SE2.toMatrix, SE2.exp, SE2.mk', SO2.exp]
  have hc : HasDerivAt (fun t : ℝ => SE2.emb.toMatrix
      (SE2.exp eps (![1, 0, θ] + t • ![0, 0, 1])) 0 0) (-Real.sin θ) 0 := by
    have := hlin.cos
    simp only [add_zero, mul_one] at this
    refine this.congr_of_eventuallyEq (Filter.Eventually.of_forall fun t => ?_)
    simp only [e2]
    simp [SE2.emb, SE2.toMatrix, SE2.exp, SE2.mk', SO2.exp]
  have q0 := (hξ 0 2).unique hx
  have q1 := (hξ 1 2).unique hy
  have q2 := (hξ 1 0).unique hs
  have q3 := (hξ 0 0).unique hc
  simp [SE2.emb, SE2.toMatrix, SE2.exp, SE2.mk', SO2.exp, SE2.hat, Matrix.mul_apply,
    Fin.sum_univ_three] at q0 q1 q2 q3
  have hsc := Real.cos_sq_add_sin_sq θ
  have f2 : ξ 2 = 1 := by
    have : ξ 2 * (Real.cos θ ^ 2 + Real.sin θ ^ 2) = Real.cos θ ^ 2 + Real.sin θ ^ 2 := by
      linear_combination Real.cos θ * q2 + Real.sin θ * q3
    rwa [hsc, mul_one] at this
  have f01 : ξ 0 ^ 2 + ξ 1 ^ 2 = (-θ / 3) ^ 2 + (1 / 2 - θ ^ 2 / 8) ^ 2 := by
    rw [← q0, show (1 / 2 - θ ^ 2 / 8 : ℝ) = 2⁻¹ - θ ^ 2 / 8 by norm_num, ← q1]
    linear_combination (-(ξ 0 ^ 2) - ξ 1 ^ 2) * hsc
  have hL : ![0, 0, 1] ⬝ᵥ (lam *ᵥ ![0, 0, 1])
      = (θ - θ ^ 3 / 120) ^ 2 + (1 / 2 - θ ^ 2 / 24) ^ 2 + 1 := by
    have : lam = (SE2.dexp eps ![1, 0, θ])ᵀ * 1 * SE2.dexp eps ![1, 0, θ] := rfl
    rw [this, congr_form, Matrix.one_mulVec]
    simp [SE2.dexp, habs, dotProduct, Fin.sum_univ_three]
    ring
  rw [hL, Matrix.one_mulVec] at hq
  simp only [dotProduct, Fin.sum_univ_three, f2] at hq
  have hθ1 : θ < 1 := by linarith
  have ht2 : 0 < θ ^ 2 := by positivity
  have ht21 : θ ^ 2 < 1 := by nlinarith
  have p1 : θ / 3 < θ - θ ^ 3 / 120 := by nlinarith
  have p2 : (θ / 3) ^ 2 < (θ - θ ^ 3 / 120) ^ 2 := by
    apply pow_lt_pow_left₀ p1 (by positivity) (by norm_num)
  have p3 : (1 / 2 - θ ^ 2 / 8) ^ 2 ≤ (1 / 2 - θ ^ 2 / 24) ^ 2 := by
    apply pow_le_pow_left₀ <;> nlinarith
  nlinarith

/-! ## Non-vacuity -/

/-- The `float64` thresholds of torchlie. -/
noncomputable def eps64 : Eps := ⟨5e-3, 1e-2, 1e-7⟩

theorem eps64_legal : eps64.Legal := ⟨by norm_num [eps64], by norm_num [eps64], by norm_num [eps64]⟩

/-- An `SE2` Gaussian with a quarter turn; an `SO3` Gaussian with a quarter turn. -/
example : ∃ g, retractGaussian eps64 ⟨.se2, SE2.mk 1 2 0 1⟩ ![3, 4, Real.pi / 2]
      (!![2, 1, 0; 1, 2, 0; 0, 0, 1] : Matrix (Fin 3) (Fin 3) ℝ) = .ok g ∧
    localGaussian eps64 ⟨.se2, SE2.mk 1 2 0 1⟩ g
      = .ok ⟨![3, 4, Real.pi / 2], (!![2, 1, 0; 1, 2, 0; 0, 0, 1] : Matrix (Fin 3) (Fin 3) ℝ)⟩ := by
  obtain ⟨g, h1, h2, _⟩ := local_retract_gaussian eps64_legal ⟨.se2, SE2.mk 1 2 0 1⟩
    (by simp [Var.Valid]) ![3, 4, Real.pi / 2]
    (!![2, 1, 0; 1, 2, 0; 0, 0, 1] : Matrix (Fin 3) (Fin 3) ℝ)
    (by ext i j; fin_cases i <;> fin_cases j <;> rfl)
    (by
      have hp := Real.pi_gt_three
      refine ⟨?_, ?_, Or.inl ?_⟩
      · change -Real.pi < Real.pi / 2; linarith
      · change Real.pi / 2 < Real.pi; linarith
      · change eps64.near ≤ |Real.pi / 2|
        rw [abs_of_pos (by linarith)]; norm_num [eps64]; linarith)
  exact ⟨g, h1, h2⟩

example : Domain eps64 .so3 ![0, 0, Real.pi / 2] ∧ Smooth eps64 .so3 ![0, 0, Real.pi / 2] := by
  have hp := Real.pi_gt_three
  refine ⟨Or.inl ⟨?_, ?_, ?_⟩, ?_⟩
  · refine le_trans ?_ SO3.norm3_quarter.ge; norm_num [eps64]; linarith
  · exact lt_of_eq_of_lt SO3.norm3_quarter (by linarith)
  · rw [SO3.norm3_quarter, Real.cos_pi_div_two]; norm_num [eps64]
  · change norm3 ![0, 0, Real.pi / 2] ≠ eps64.near
    rw [SO3.norm3_quarter]; norm_num [eps64]; linarith

example : Related eps64 .so3 (1 : M3) SO3.quarter := by
  have hp := Real.pi_gt_three
  left
  change eps64.near ≤ SO3.theta ((1 : M3)ᵀ * SO3.quarter) ∧
    (1 + SO3.cosine ((1 : M3)ᵀ * SO3.quarter) ≤ eps64.npi → ¬ SO3.TieAxis ((1 : M3)ᵀ * SO3.quarter))
  rw [Matrix.transpose_one, Matrix.one_mul, SO3.quarter_theta, SO3.quarter_cosine]
  constructor
  · norm_num [eps64]; linarith
  · norm_num [eps64]

end Verif.Gauss
