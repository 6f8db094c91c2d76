import Verif.Geometry.SO3Jlog

/-!
# `SE3`: the embedding in the 4x4 matrices, and the derivative of the exponential
-/

namespace Verif.Geometry
open Matrix

namespace SE3

/-- Legal poses. -/
def Valid (g : SE3) : Prop := SO3.Valid g.R

/-- `SE3` in the 4x4 matrices. -/
def emb : Embedding 6 4 SE3 where
  valid := Valid
  toMatrix := toMatrix
  hat := hat

theorem hom_mul (A A' : M3) (b b' : V3) (e e' : ℝ) :
    hom A b e * hom A' b' e' = hom (A * A') (A *ᵥ b' + e' • b) (e * e') := by
  ext i j
  fin_cases i <;> fin_cases j <;>
    simp [hom, Matrix.mul_apply, Matrix.mulVec, dotProduct, Fin.sum_univ_three,
      Fin.sum_univ_four] <;> ring

theorem hom_add (A A' : M3) (b b' : V3) (e e' : ℝ) :
    hom A b e + hom A' b' e' = hom (A + A') (b + b') (e + e') := by
  ext i j
  fin_cases i <;> fin_cases j <;> simp [hom]

theorem hom_smul (r : ℝ) (A : M3) (b : V3) (e : ℝ) : r • hom A b e = hom (r • A) (r • b) (r * e) := by
  ext i j
  fin_cases i <;> fin_cases j <;> simp [hom]

theorem hom_one : hom 1 0 1 = 1 := by
  ext i j
  fin_cases i <;> fin_cases j <;> simp [hom]

theorem hom_inj {A A' : M3} {b b' : V3} {e e' : ℝ} (h : hom A b e = hom A' b' e') :
    A = A' ∧ b = b' := by
  have g : ∀ i j, hom A b e i j = hom A' b' e' i j := fun i j => by rw [h]
  constructor
  · ext i j
    fin_cases i <;> fin_cases j
    · simpa [hom] using g 0 0
    · simpa [hom] using g 0 1
    · simpa [hom] using g 0 2
    · simpa [hom] using g 1 0
    · simpa [hom] using g 1 1
    · simpa [hom] using g 1 2
    · simpa [hom] using g 2 0
    · simpa [hom] using g 2 1
    · simpa [hom] using g 2 2
  · ext i
    fin_cases i
    · simpa [hom] using g 0 3
    · simpa [hom] using g 1 3
    · simpa [hom] using g 2 3

theorem lin_add (u v : Fin 6 → ℝ) : lin (u + v) = lin u + lin v := by
  ext i; fin_cases i <;> simp [lin]
theorem ang_add (u v : Fin 6 → ℝ) : ang (u + v) = ang u + ang v := by
  ext i; fin_cases i <;> simp [ang]
theorem lin_smul (r : ℝ) (v : Fin 6 → ℝ) : lin (r • v) = r • lin v := by
  ext i; fin_cases i <;> simp [lin]
theorem ang_smul (r : ℝ) (v : Fin 6 → ℝ) : ang (r • v) = r • ang v := by
  ext i; fin_cases i <;> simp [ang]
theorem lin_join (u w : V3) : lin (join u w) = u := by
  ext i; fin_cases i <;> simp [lin, join]
theorem ang_join (u w : V3) : ang (join u w) = w := by
  ext i; fin_cases i <;> simp [ang, join]
theorem join_eta (v : Fin 6 → ℝ) : join (lin v) (ang v) = v := by
  ext i; fin_cases i <;> simp [lin, ang, join]

theorem ext6 {u v : Fin 6 → ℝ} (h1 : lin u = lin v) (h2 : ang u = ang v) : u = v := by
  rw [← join_eta u, ← join_eta v, h1, h2]

theorem block_mulVec (A B C D : M3) (v : Fin 6 → ℝ) :
    block A B C D *ᵥ v = join (A *ᵥ lin v + B *ᵥ ang v) (C *ᵥ lin v + D *ᵥ ang v) := by
  ext i
  fin_cases i <;>
    simp [block, join, lin, ang, Matrix.mulVec, dotProduct, Fin.sum_univ_three,
      Fin.sum_univ_six] <;> ring

theorem hat_add (u v : Fin 6 → ℝ) : hat (u + v) = hat u + hat v := by
  rw [hat, hat, hat, hom_add, ang_add, lin_add, SO3.hat_add, add_zero]

theorem hat_smul (r : ℝ) (v : Fin 6 → ℝ) : hat (r • v) = r • hat v := by
  rw [hat, hat, hom_smul, ang_smul, lin_smul, SO3.hat_smul, mul_zero]

theorem so3_hat_inj {u v : V3} (h : SO3.hat u = SO3.hat v) : u = v := by
  have g : ∀ i j, SO3.hat u i j = SO3.hat v i j := fun i j => by rw [h]
  ext i
  fin_cases i
  · simpa [SO3.hat] using g 2 1
  · simpa [SO3.hat] using g 0 2
  · simpa [SO3.hat] using g 1 0

theorem hat_inj {u v : Fin 6 → ℝ} (h : hat u = hat v) : u = v := by
  obtain ⟨h1, h2⟩ := hom_inj h
  exact ext6 h2 (so3_hat_inj h1)

theorem cross_anti (u v : V3) : cross3 u v + cross3 v u = 0 := by
  ext i; fin_cases i <;> simp [cross3] <;> ring

theorem adjoint_hat {a : SE3} (ha : Valid a) (v : Fin 6 → ℝ) :
    toMatrix a * hat v = hat (adjoint a *ᵥ v) * toMatrix a := by
  rw [adjoint, block_mulVec, toMatrix, hat, hat, hom_mul, hom_mul, ang_join, lin_join]
  simp only [Matrix.zero_mulVec, zero_add, zero_smul, add_zero, one_smul, mul_zero]
  rw [SO3.adjoint_hat ha]
  congr 1
  · rw [SO3.hat_mulVec, ← Matrix.mulVec_mulVec, SO3.hat_mulVec, add_left_comm, cross_anti, add_zero]
  · ring

/-- Derivative of the 4x4 matrix from the derivatives of its blocks. -/
theorem hom_deriv {A : ℝ → M3} {A' : M3} {b : ℝ → V3} {b' : V3} (hA : MatDeriv A A')
    (hb : VecDeriv b b') (e : ℝ) : MatDeriv (fun t => hom (A t) (b t) e) (hom A' b' 0) := by
  intro i j
  have hz : ∀ r : ℝ, HasDerivAt (fun _ : ℝ => r) 0 0 := fun r => hasDerivAt_const 0 r
  fin_cases i <;> fin_cases j
  · simpa [hom] using hA 0 0
  · simpa [hom] using hA 0 1
  · simpa [hom] using hA 0 2
  · simpa [hom] using hb 0
  · simpa [hom] using hA 1 0
  · simpa [hom] using hA 1 1
  · simpa [hom] using hA 1 2
  · simpa [hom] using hb 1
  · simpa [hom] using hA 2 0
  · simpa [hom] using hA 2 1
  · simpa [hom] using hA 2 2
  · simpa [hom] using hb 2
  · simpa [hom] using hz 0
  · simpa [hom] using hz 0
  · simpa [hom] using hz 0
  · simpa [hom] using hz e

/-- Derivatives of the blocks from that of the 4x4 matrix. -/
theorem of_hom_deriv {A : ℝ → M3} {A' : M3} {b : ℝ → V3} {b' : V3} {e e' : ℝ}
    (h : MatDeriv (fun t => hom (A t) (b t) e) (hom A' b' e')) : MatDeriv A A' ∧ VecDeriv b b' := by
  constructor
  · intro i j
    fin_cases i <;> fin_cases j
    · simpa [hom] using h 0 0
    · simpa [hom] using h 0 1
    · simpa [hom] using h 0 2
    · simpa [hom] using h 1 0
    · simpa [hom] using h 1 1
    · simpa [hom] using h 1 2
    · simpa [hom] using h 2 0
    · simpa [hom] using h 2 1
    · simpa [hom] using h 2 2
  · intro i
    fin_cases i
    · simpa [hom] using h 0 3
    · simpa [hom] using h 1 3
    · simpa [hom] using h 2 3

/-- A curve of poses has tangent `(υ, ω)` when `R' = R hat(ω)` and `t' = R υ`. -/
theorem tangent_iff {x : ℝ → SE3} {ξ : Fin 6 → ℝ} : emb.Tangent x ξ ↔
    (∀ t, Valid (x t)) ∧ MatDeriv (fun t => (x t).R) ((x 0).R * SO3.hat (ang ξ)) ∧
      VecDeriv (fun t => (x t).t) ((x 0).R *ᵥ lin ξ) := by
  have e : emb.toMatrix (x 0) * emb.hat ξ
      = hom ((x 0).R * SO3.hat (ang ξ)) ((x 0).R *ᵥ lin ξ) 0 := by
    change toMatrix _ * hat _ = _
    rw [toMatrix, hat, hom_mul]; simp
  unfold Embedding.Tangent
  rw [e]
  constructor
  · rintro ⟨hv, h⟩
    exact ⟨hv, of_hom_deriv h⟩
  · rintro ⟨hv, h1, h2⟩
    exact ⟨hv, hom_deriv h1 h2 1⟩

theorem tangent_rot {x : ℝ → SE3} {ξ : Fin 6 → ℝ} (h : emb.Tangent x ξ) :
    SO3.emb.Tangent (fun t => (x t).R) (ang ξ) := by
  obtain ⟨hv, h1, _⟩ := tangent_iff.mp h
  exact ⟨hv, h1⟩

theorem lin_deriv {x : ℝ → Fin 6 → ℝ} {x' : Fin 6 → ℝ} (h : VecDeriv x x') :
    VecDeriv (fun t => lin (x t)) (lin x') := by
  intro i
  fin_cases i
  · simpa [lin] using h 0
  · simpa [lin] using h 1
  · simpa [lin] using h 2

theorem ang_deriv {x : ℝ → Fin 6 → ℝ} {x' : Fin 6 → ℝ} (h : VecDeriv x x') :
    VecDeriv (fun t => ang (x t)) (ang x') := by
  intro i
  fin_cases i
  · simpa [ang] using h 3
  · simpa [ang] using h 4
  · simpa [ang] using h 5

/-- Derivative of the translation of the exponential from those of its coefficients. -/
theorem expT_deriv {s k q : ℝ → ℝ} {u w : ℝ → V3} {s' k' q' : ℝ} {u' w' : V3}
    (hs : HasDerivAt s s' 0) (hk : HasDerivAt k k' 0) (hq : HasDerivAt q q' 0)
    (hu : VecDeriv u u') (hw : VecDeriv w w') :
    VecDeriv (fun t => expT (s t) (k t) (q t) (u t) (w t))
      (expT (s 0) (k 0) (q 0) u' (w 0) + (s' • u 0 + (k' • cross3 (w 0) (u 0)
        + k 0 • cross3 w' (u 0)) + (q' • (dot3 (w 0) (u 0) • w 0)
        + q 0 • (dot3 w' (u 0) • w 0 + dot3 (w 0) (u 0) • w')))) := by
  have hdot : HasDerivAt (fun t => dot3 (w t) (u t)) (dot3 w' (u 0) + dot3 (w 0) u') 0 := by
    have := (((hw 0).fun_mul (hu 0)).fun_add ((hw 1).fun_mul (hu 1))).fun_add
      ((hw 2).fun_mul (hu 2))
    exact this.congr_deriv (by simp only [dot3]; ring)
  have hcross : ∀ i, HasDerivAt (fun t => cross3 (w t) (u t) i)
      (cross3 w' (u 0) i + cross3 (w 0) u' i) 0 := by
    intro i
    fin_cases i
    · refine (((hw 1).fun_mul (hu 2)).fun_sub ((hw 2).fun_mul (hu 1))).congr_deriv ?_
      simp [cross3]; ring
    · refine (((hw 2).fun_mul (hu 0)).fun_sub ((hw 0).fun_mul (hu 2))).congr_deriv ?_
      simp [cross3]; ring
    · refine (((hw 0).fun_mul (hu 1)).fun_sub ((hw 1).fun_mul (hu 0))).congr_deriv ?_
      simp [cross3]; ring
  intro i
  refine (((hs.fun_mul (hu i)).fun_add (hk.fun_mul (hcross i))).fun_add
    (hq.fun_mul (hdot.fun_mul (hw i)))).congr_deriv ?_
  simp only [expT, Pi.add_apply, Pi.smul_apply, smul_eq_mul]
  ring

/-- `jac_temp_t` applied to a direction. -/
theorem jexpT_mulVec (k q dk dq : ℝ) (v w x : V3) :
    jexpT k q dk dq v w *ᵥ x = dot3 w x • (dk • cross3 w v + dq • cross3 w (cross3 w v))
      - (q * dot3 w x) • v + cross3 (-k • v - q • cross3 w v) x + (q * dot3 w v) • x := by
  simp only [jexpT]
  rw [Matrix.add_mulVec, Matrix.add_mulVec, Matrix.sub_mulVec, SO3.outer_mulVec, SO3.outer_mulVec,
    SO3.hat_mulVec, Matrix.smul_mulVec, Matrix.one_mulVec]
  congr 2
  · congr 2
    simp [dot3]; ring
  · simp [dot3]; ring

theorem jexpOf_mulVec (s k q : ℝ) (w x : V3) :
    SO3.jexpOf s k q w *ᵥ x = expT s (-k) q x w := by
  rw [SO3.jexpOf, Matrix.sub_mulVec, Matrix.add_mulVec, Matrix.smul_mulVec, SO3.outer_mulVec,
    Matrix.smul_mulVec, Matrix.one_mulVec, SO3.hat_smul, Matrix.smul_mulVec, SO3.hat_mulVec, expT]
  module

theorem expT_x (s k q : ℝ) (u w : V3) :
    expT s k q u w 0 = s * u 0 + k * (w 1 * u 2 - w 2 * u 1) + q * (dot3 w u * w 0) :=
  rfl
theorem expT_y (s k q : ℝ) (u w : V3) :
    expT s k q u w 1 = s * u 1 + k * (w 2 * u 0 - w 0 * u 2) + q * (dot3 w u * w 1) :=
  rfl
theorem expT_z (s k q : ℝ) (u w : V3) :
    expT s k q u w 2 = s * u 2 + k * (w 0 * u 1 - w 1 * u 0) + q * (dot3 w u * w 2) :=
  rfl

/-- The rotation times the right Jacobian is the left Jacobian. -/
theorem rod_jexp {k c s q : ℝ} {w : V3} (h1 : c + k * dot3 w w = 1) (h2 : s ^ 2 = k * (1 + c))
    (h3 : s + q * dot3 w w = 1) (x : V3) :
    SO3.rod k c s w *ᵥ (SO3.jexpOf s k q w *ᵥ x) = expT s k q x w := by
  have hc : c = 1 - k * dot3 w w := by linarith
  have hs : s = 1 - q * dot3 w w := by linarith
  rw [hc] at h2
  rw [jexpOf_mulVec, SO3.rod, Matrix.add_mulVec, Matrix.add_mulVec, Matrix.smul_mulVec,
    Matrix.smul_mulVec, SO3.outer_mulVec, Matrix.one_mulVec, SO3.hat_mulVec]
  subst hc
  ext i
  simp only [Pi.add_apply, Pi.smul_apply, smul_eq_mul]
  have hs' : s * s = k * (1 + (1 - k * dot3 w w)) := by rw [← h2]; ring
  fin_cases i
  · simp [cross3, dot3, expT_x, expT_y, expT_z] at hs' ⊢
    unfold dot3 at hs
    subst hs
    linear_combination (w 1 * x 2 - w 2 * x 1) * hs'
  · simp [cross3, dot3, expT_x, expT_y, expT_z] at hs' ⊢
    unfold dot3 at hs
    subst hs
    linear_combination (w 2 * x 0 - w 0 * x 2) * hs'
  · simp [cross3, dot3, expT_x, expT_y, expT_z] at hs' ⊢
    unfold dot3 at hs
    subst hs
    linear_combination (w 0 * x 1 - w 1 * x 0) * hs'

end SE3
end Verif.Geometry
