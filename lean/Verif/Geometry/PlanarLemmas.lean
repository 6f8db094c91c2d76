import Verif.Geometry.Planar
import Verif.Geometry.LieProps
import Mathlib.Analysis.SpecialFunctions.Complex.LogDeriv
import Mathlib.Analysis.SpecialFunctions.Trigonometric.Deriv
import Mathlib.Analysis.Calculus.Deriv.Pow
import Mathlib.Tactic.FieldSimp
import Mathlib.Tactic.LinearCombination

namespace Verif.Geometry
open Matrix

/-- Legal `SO2` representations: unit cosine/sine pairs. -/
def SO2.Valid (a : SO2) : Prop := a.c ^ 2 + a.s ^ 2 = 1

/-- Legal `SE2` representations. -/
def SE2.Valid (a : SE2) : Prop := a.c ^ 2 + a.s ^ 2 = 1

/-- `SO2` in the 2x2 matrices. -/
def SO2.emb : Embedding 1 2 SO2 where
  valid := SO2.Valid
  toMatrix := SO2.toMatrix
  hat := SO2.hat

/-- `SE2` in the 3x3 matrices. -/
def SE2.emb : Embedding 3 3 SE2 where
  valid := SE2.Valid
  toMatrix := SE2.toMatrix
  hat := SE2.hat

/-- The derivative of `atan2` along a curve. -/
theorem hasDerivAt_atan2 {c s : ℝ → ℝ} {c' s' t₀ : ℝ} (hc : HasDerivAt c c' t₀)
    (hs : HasDerivAt s s' t₀) (h : (⟨c t₀, s t₀⟩ : ℂ) ∈ Complex.slitPlane) :
    HasDerivAt (fun t => SO2.atan2 (s t) (c t))
      ((c t₀ * s' - s t₀ * c') / (c t₀ ^ 2 + s t₀ ^ 2)) t₀ := by
  have hz : HasDerivAt (fun t => (⟨c t, s t⟩ : ℂ)) ⟨c', s'⟩ t₀ := by
    have h1 := (hc.ofReal_comp).add ((hs.ofReal_comp).mul_const Complex.I)
    have e1 : (fun t => (⟨c t, s t⟩ : ℂ)) = fun t => ((c t : ℂ) + (s t : ℂ) * Complex.I) := by
      funext t; apply Complex.ext <;> simp
    have e2 : (⟨c', s'⟩ : ℂ) = (c' : ℂ) + (s' : ℂ) * Complex.I := by
      apply Complex.ext <;> simp
    rw [e1, e2]; exact h1
  have hl := hz.clog_real h
  have him := (Complex.imCLM.hasFDerivAt (x := Complex.log ⟨c t₀, s t₀⟩)).comp_hasDerivAt t₀ hl
  have e3 : (fun t => SO2.atan2 (s t) (c t)) = (⇑Complex.imCLM ∘ fun t => Complex.log ⟨c t, s t⟩) := by
    funext t; simp [SO2.atan2, Complex.log_im]
  rw [e3]
  refine him.congr_deriv ?_
  simp only [Complex.imCLM_apply, Complex.div_im, Complex.normSq_mk]
  have hne : c t₀ ^ 2 + s t₀ ^ 2 ≠ 0 := by
    intro h0
    have hc0 : c t₀ = 0 := by nlinarith [sq_nonneg (c t₀), sq_nonneg (s t₀)]
    have hs0 : s t₀ = 0 := by nlinarith [sq_nonneg (c t₀), sq_nonneg (s t₀)]
    rw [hc0, hs0] at h
    exact absurd rfl (Complex.slitPlane_ne_zero h)
  have e4 : c t₀ * c t₀ + s t₀ * s t₀ = c t₀ ^ 2 + s t₀ ^ 2 := by ring
  rw [e4]
  field_simp

namespace SO2

theorem arg_cos_sin {θ : ℝ} (h1 : -Real.pi < θ) (h2 : θ ≤ Real.pi) :
    atan2 (Real.sin θ) (Real.cos θ) = θ := by
  have := Complex.arg_cos_add_sin_mul_I (θ := θ) ⟨h1, h2⟩
  refine Eq.trans ?_ this
  rw [atan2]
  congr 1
  apply Complex.ext <;> simp [Complex.cos_ofReal_re, Complex.sin_ofReal_re, Complex.sin_ofReal_im,
    Complex.cos_ofReal_im]

theorem cos_log {a : SO2} (ha : a.Valid) : Real.cos a.log = a.c := by
  have hne : (⟨a.c, a.s⟩ : ℂ) ≠ 0 := by
    intro h0
    have h1 := congrArg Complex.re h0
    have h2 := congrArg Complex.im h0
    simp only [Complex.zero_re, Complex.zero_im] at h1 h2
    unfold Valid at ha; rw [h1, h2] at ha; norm_num at ha
  have hn : ‖(⟨a.c, a.s⟩ : ℂ)‖ = 1 := by
    rw [Complex.norm_eq_sqrt_sq_add_sq]; simp only; unfold Valid at ha; rw [ha]; simp
  unfold log atan2
  rw [Complex.cos_arg hne, hn]; simp

theorem sin_log {a : SO2} (ha : a.Valid) : Real.sin a.log = a.s := by
  have hn : ‖(⟨a.c, a.s⟩ : ℂ)‖ = 1 := by
    rw [Complex.norm_eq_sqrt_sq_add_sq]; simp only; unfold Valid at ha; rw [ha]; simp
  unfold log atan2
  rw [Complex.sin_arg, hn]; simp

theorem log_mem (a : SO2) : -Real.pi < a.log ∧ a.log ≤ Real.pi := Complex.arg_mem_Ioc _

theorem slit_of_log {a : SO2} (ha : a.Valid) (h : a.log ≠ Real.pi) :
    (⟨a.c, a.s⟩ : ℂ) ∈ Complex.slitPlane := by
  rw [Complex.mem_slitPlane_iff_arg]
  refine ⟨h, ?_⟩
  intro h0
  have h1 := congrArg Complex.re h0
  have h2 := congrArg Complex.im h0
  simp only [Complex.zero_re, Complex.zero_im] at h1 h2
  unfold Valid at ha; rw [h1, h2] at ha; norm_num at ha

theorem lawful : emb.Lawful ops where
  toMatrix_inj a b h := by
    have h1 := congrFun (congrFun h 0) 0
    have h2 := congrFun (congrFun h 1) 0
    simp [emb, toMatrix] at h1 h2
    exact SO2.ext h1 h2
  hat_add u v := by ext i j; fin_cases i <;> fin_cases j <;> simp [emb, hat]; ring
  hat_smul c v := by ext i j; fin_cases i <;> fin_cases j <;> simp [emb, hat]
  compose_valid a b ha hb := by
    simp only [emb, Valid, ops, compose] at *
    linear_combination (b.c ^ 2 + b.s ^ 2) * ha + hb
  inverse_valid a ha := by simp only [emb, Valid, ops, inverse] at *; linear_combination ha
  exp_valid v := by simp only [emb, Valid, ops, exp]; exact Real.cos_sq_add_sin_sq _
  toMatrix_compose a b := by
    ext i j; fin_cases i <;> fin_cases j <;>
      simp [emb, toMatrix, ops, compose, Matrix.mul_apply, Fin.sum_univ_two] <;> ring
  toMatrix_inverse a ha := by
    simp only [emb, Valid] at ha
    ext i j; fin_cases i <;> fin_cases j <;>
      simp [emb, toMatrix, ops, inverse, Matrix.mul_apply, Fin.sum_univ_two] <;>
      first | linear_combination ha | ring
  adjoint_hat a v _ := by
    ext i j; fin_cases i <;> fin_cases j <;>
      simp [emb, toMatrix, ops, hat, Matrix.mul_apply, Fin.sum_univ_two, dotProduct] <;> ring
  exp_zero := by ext i j; fin_cases i <;> fin_cases j <;> simp [emb, toMatrix, ops, exp]
  exp_deriv v := by
    have hc : HasDerivAt (fun t : ℝ => Real.cos (t * v 0)) 0 0 := by
      have := ((hasDerivAt_id (0 : ℝ)).mul_const (v 0)).cos
      exact this.congr_deriv (by simp)
    have hs : HasDerivAt (fun t : ℝ => Real.sin (t * v 0)) (v 0) 0 := by
      have := ((hasDerivAt_id (0 : ℝ)).mul_const (v 0)).sin
      exact this.congr_deriv (by simp)
    intro i j
    fin_cases i <;> fin_cases j
    · simpa [emb, toMatrix, ops, hat, exp] using hc
    · simpa [emb, toMatrix, ops, hat, exp] using hs.fun_neg
    · simpa [emb, toMatrix, ops, hat, exp] using hs
    · simpa [emb, toMatrix, ops, hat, exp] using hc

end SO2

namespace SE2

theorem expA_deriv {eps : ℝ} (he : 0 < eps) (θ : ℝ) :
    HasDerivAt (fun t => expA eps (t * θ)) 0 0 := by
  have hev : (fun t : ℝ => 1 - (t * θ) ^ 2 / 6) =ᶠ[nhds 0] fun t => expA eps (t * θ) := by
    have hc : ContinuousAt (fun t : ℝ => |t * θ|) 0 := by fun_prop
    have := hc.eventually_lt continuousAt_const (show |0 * θ| < eps by simpa using he)
    filter_upwards [this] with t ht
    rw [expA, if_pos ht]
  have h1 := ((((hasDerivAt_id (0 : ℝ)).mul_const θ).pow 2).div_const 6).const_sub 1
  refine (h1.congr_deriv ?_).congr_of_eventuallyEq (hev.symm.trans ?_)
  · simp
  · exact Filter.EventuallyEq.of_eq (by funext t; simp)

theorem expB_deriv {eps : ℝ} (he : 0 < eps) (θ : ℝ) :
    HasDerivAt (fun t => expB eps (t * θ)) (-θ / 2) 0 := by
  have hev : (fun t : ℝ => -(t * θ) / 2 + (t * θ) ^ 3 / 24) =ᶠ[nhds 0] fun t => expB eps (t * θ) := by
    have hc : ContinuousAt (fun t : ℝ => |t * θ|) 0 := by fun_prop
    have := hc.eventually_lt continuousAt_const (show |0 * θ| < eps by simpa using he)
    filter_upwards [this] with t ht
    rw [expB, if_pos ht]
  have h0 := (hasDerivAt_id (0 : ℝ)).mul_const θ
  have h1 := (h0.neg.div_const 2).add ((h0.pow 3).div_const 24)
  refine (h1.congr_deriv ?_).congr_of_eventuallyEq (hev.symm.trans ?_)
  · simp
  · exact Filter.EventuallyEq.of_eq (by funext t; simp)

theorem expA_zero {eps : ℝ} (he : 0 < eps) : expA eps 0 = 1 := by simp [expA, he]
theorem expB_zero {eps : ℝ} (he : 0 < eps) : expB eps 0 = 0 := by simp [expB, he]

theorem lawful {eps deps : ℝ} (he : 0 < eps) : emb.Lawful (ops eps deps) where
  toMatrix_inj a b h := by
    have h1 := congrFun (congrFun h 0) 0
    have h2 := congrFun (congrFun h 1) 0
    have h3 := congrFun (congrFun h 0) 2
    have h4 := congrFun (congrFun h 1) 2
    simp [emb, toMatrix] at h1 h2 h3 h4
    exact SE2.ext h3 h4 h1 h2
  hat_add u v := by
    ext i j; fin_cases i <;> fin_cases j <;> simp [emb, hat]; ring
  hat_smul c v := by ext i j; fin_cases i <;> fin_cases j <;> simp [emb, hat]
  compose_valid a b ha hb := by
    simp only [emb, Valid, ops, compose, mk', SO2.compose, rot] at *
    linear_combination (b.c ^ 2 + b.s ^ 2) * ha + hb
  inverse_valid a ha := by
    simp only [emb, Valid, ops, inverse, mk', SO2.inverse, rot] at *; linear_combination ha
  exp_valid v := by
    simp only [emb, Valid, ops, exp, mk', SO2.exp]; exact Real.cos_sq_add_sin_sq _
  toMatrix_compose a b := by
    ext i j; fin_cases i <;> fin_cases j <;>
      simp [emb, toMatrix, ops, compose, mk', SO2.compose, rot, trans, SO2.rotate,
        SO2.rotateFromCosSin, Matrix.mul_apply, Fin.sum_univ_three] <;> ring
  toMatrix_inverse a ha := by
    simp only [emb, Valid] at ha
    ext i j; fin_cases i <;> fin_cases j <;>
      simp [emb, toMatrix, ops, inverse, mk', SO2.inverse, rot, SO2.rotate,
        SO2.rotateFromCosSin, Matrix.mul_apply, Fin.sum_univ_three] <;>
      first | linear_combination ha | ring
  adjoint_hat a v _ := by
    ext i j; fin_cases i <;> fin_cases j <;>
      simp [emb, toMatrix, ops, hat, adjoint, Matrix.mul_apply, Fin.sum_univ_three,
        dotProduct] <;> ring
  exp_zero := by
    ext i j; fin_cases i <;> fin_cases j <;> simp [emb, toMatrix, ops, exp, mk', SO2.exp]
  exp_deriv v := by
    have h0 := (hasDerivAt_id (0 : ℝ))
    have hc : HasDerivAt (fun t : ℝ => Real.cos (t * v 2)) 0 0 := by
      have := ((hasDerivAt_id (0 : ℝ)).mul_const (v 2)).cos
      exact this.congr_deriv (by simp)
    have hs : HasDerivAt (fun t : ℝ => Real.sin (t * v 2)) (v 2) 0 := by
      have := ((hasDerivAt_id (0 : ℝ)).mul_const (v 2)).sin
      exact this.congr_deriv (by simp)
    have ha := expA_deriv he (v 2)
    have hb := expB_deriv he (v 2)
    have hx : HasDerivAt (fun t : ℝ => expA eps (t * v 2) * (t * v 0) +
        expB eps (t * v 2) * (t * v 1)) (v 0) 0 := by
      have := (ha.mul (h0.mul_const (v 0))).add (hb.mul (h0.mul_const (v 1)))
      exact this.congr_deriv (by simp [expA_zero he, expB_zero he])
    have hy : HasDerivAt (fun t : ℝ => expA eps (t * v 2) * (t * v 1) -
        expB eps (t * v 2) * (t * v 0)) (v 1) 0 := by
      have := (ha.mul (h0.mul_const (v 1))).sub (hb.mul (h0.mul_const (v 0)))
      exact this.congr_deriv (by simp [expA_zero he, expB_zero he])
    intro i j
    fin_cases i <;> fin_cases j
    · simpa [emb, toMatrix, ops, hat, exp, mk', SO2.exp] using hc
    · simpa [emb, toMatrix, ops, hat, exp, mk', SO2.exp] using hs.fun_neg
    · simpa [emb, toMatrix, ops, hat, exp, mk', SO2.exp] using hx
    · simpa [emb, toMatrix, ops, hat, exp, mk', SO2.exp] using hs
    · simpa [emb, toMatrix, ops, hat, exp, mk', SO2.exp] using hc
    · simpa [emb, toMatrix, ops, hat, exp, mk', SO2.exp] using hy
    · simpa [emb, toMatrix, ops, hat, exp, mk', SO2.exp] using hasDerivAt_const (0 : ℝ) (0 : ℝ)
    · simpa [emb, toMatrix, ops, hat, exp, mk', SO2.exp] using hasDerivAt_const (0 : ℝ) (0 : ℝ)
    · simpa [emb, toMatrix, ops, hat, exp, mk', SO2.exp] using hasDerivAt_const (0 : ℝ) (1 : ℝ)

end SE2

namespace Vec
variable {n : ℕ}

/-- The tangent matrix of a translation: the last column is the vector. -/
def hat (v : Fin n → ℝ) : Matrix (Fin (n + 1)) (Fin (n + 1)) ℝ :=
  Matrix.of fun i j => if j = Fin.last n then Fin.lastCases 0 v i else 0

/-- `Vector` as the group of translations, in homogeneous coordinates. -/
def emb (n : ℕ) : Embedding n (n + 1) (Fin n → ℝ) where
  valid _ := True
  toMatrix a := 1 + hat a
  hat := hat

theorem hat_mul_hat (u v : Fin n → ℝ) : hat u * hat v = 0 := by
  ext i j
  simp only [Matrix.mul_apply, hat, Matrix.of_apply, Matrix.zero_apply]
  refine Finset.sum_eq_zero fun k _ => ?_
  by_cases hk : k = Fin.last n
  · subst hk; simp
  · simp [hk]

theorem hat_add (u v : Fin n → ℝ) : hat (u + v) = hat u + hat v := by
  ext i j
  simp only [hat, Matrix.of_apply, Matrix.add_apply]
  by_cases hj : j = Fin.last n
  · simp only [hj, if_true]
    refine Fin.lastCases ?_ (fun i => ?_) i <;> simp
  · simp [hj]

theorem hat_smul (c : ℝ) (v : Fin n → ℝ) : hat (c • v) = c • hat v := by
  ext i j
  simp only [hat, Matrix.of_apply, Matrix.smul_apply]
  by_cases hj : j = Fin.last n
  · simp only [hj, if_true]
    refine Fin.lastCases ?_ (fun i => ?_) i <;> simp
  · simp [hj]

theorem hat_inj {u v : Fin n → ℝ} (h : hat u = hat v) : u = v := by
  funext i
  have := congrFun (congrFun h i.castSucc) (Fin.last n)
  simpa [hat] using this

theorem lawful : (emb n).Lawful (ops n) where
  toMatrix_inj a b h := hat_inj (add_left_cancel h)
  hat_add := hat_add
  hat_smul := hat_smul
  compose_valid _ _ _ _ := trivial
  inverse_valid _ _ := trivial
  exp_valid _ := trivial
  toMatrix_compose a b := by
    simp only [emb, ops, hat_add, Matrix.mul_add, Matrix.add_mul, Matrix.one_mul, Matrix.mul_one,
      hat_mul_hat]
    abel
  toMatrix_inverse a _ := by
    have : hat (-a) = -hat a := by simpa using hat_smul (-1) a
    simp only [emb, ops, this, Matrix.mul_add, Matrix.add_mul, Matrix.one_mul, Matrix.mul_one,
      hat_mul_hat, Matrix.neg_mul]
    abel
  adjoint_hat a v _ := by
    simp only [emb, ops, Matrix.one_mulVec, Matrix.add_mul, Matrix.mul_add, Matrix.one_mul,
      Matrix.mul_one, hat_mul_hat]
  exp_zero := by
    have : hat (0 : Fin n → ℝ) = 0 := by simpa using hat_smul 0 (0 : Fin n → ℝ)
    simp [emb, ops, this]
  exp_deriv v := by
    intro i j
    have e : (fun t : ℝ => (emb n).toMatrix ((ops n).exp (t • v)) i j)
        = fun t => (1 : Matrix (Fin (n + 1)) (Fin (n + 1)) ℝ) i j + t * hat v i j := by
      funext t; simp [emb, ops, hat_smul]
    rw [e]
    exact (((hasDerivAt_id (0 : ℝ)).mul_const _).const_add _).congr_deriv (by simp [emb])

end Vec
end Verif.Geometry
