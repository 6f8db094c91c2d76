import Verif.Geometry.Backward

/-!
# The custom backward passes compute gradients (C63)
-/

namespace Verif.Geometry
open Matrix

/-! ## SO3 -/

/-- `SO3`: the backward passes of the operations given by a formula on all matrices (adjoint,
inverse, hat = lift, vee, project, compose, transform, untransform, left_act, left_project) are
gradients, jointly in all the arguments. -/
theorem so3_backward :
    (∀ (x : ℝ → M3) (x' G : M3), MatDeriv x x' →
      HasDerivAt (fun t => ip G ((SO3.ops 1 1 0).adjoint (x t))) (ip (SO3.adjointBackward G) x') 0 ∧
      HasDerivAt (fun t => ip G ((SO3.ops 1 1 0).inverse (x t))) (ip (SO3.inverseBackward G) x') 0) ∧
    (∀ (v : ℝ → V3) (v' : V3) (G : M3), VecDeriv v v' →
      HasDerivAt (fun t => ip G (SO3.hat (v t))) (vip (SO3.hatBackward G) v') 0) ∧
    (∀ (x : ℝ → M3) (x' : M3) (g : V3), MatDeriv x x' →
      HasDerivAt (fun t => vip g (SO3.veeRaw (x t))) (ip (SO3.veeBackward g) x') 0 ∧
      HasDerivAt (fun t => vip g (SO3.project (x t))) (ip (SO3.projectBackward g) x') 0) ∧
    (∀ (x y : ℝ → M3) (x' y' G : M3), MatDeriv x x' → MatDeriv y y' →
      HasDerivAt (fun t => ip G ((SO3.ops 1 1 0).compose (x t) (y t)))
        (ip (SO3.composeBackward (x 0) (y 0) G).1 x'
          + ip (SO3.composeBackward (x 0) (y 0) G).2 y') 0) ∧
    (∀ (x : ℝ → M3) (p : ℝ → V3) (x' : M3) (p' g : V3), MatDeriv x x' → VecDeriv p p' →
      HasDerivAt (fun t => vip g (SO3.transform (x t) (p t)))
        (ip (SO3.transformBackward (x 0) (p 0) g).1 x'
          + vip (SO3.transformBackward (x 0) (p 0) g).2 p') 0 ∧
      HasDerivAt (fun t => vip g (SO3.untransform (x t) (p t)))
        (ip (SO3.untransformBackward (x 0) (p 0) g).1 x'
          + vip (SO3.untransformBackward (x 0) (p 0) g).2 p') 0) := by
  have hsm : ∀ (c : ℝ) (A B : M3), ip (c • A) B = c * ip A B := by
    intro c A B
    simp only [ip, Matrix.smul_apply, smul_eq_mul, Finset.mul_sum, mul_assoc]
  refine ⟨?_, ?_, ?_, ?_, ?_⟩
  · intro x x' G hx
    refine ⟨ip_deriv hx G, ?_⟩
    refine (ip_deriv hx.transpose G).congr_deriv ?_
    rw [ip_transpose, SO3.inverseBackward]
  · intro v v' G hv
    have e : ∀ w, ip G (SO3.hat w) = vip (SO3.hatBackward G) w := ip_hat G
    simp only [e]
    exact vip_deriv hv _
  · intro x x' g hx
    have e : ∀ m, vip g (SO3.veeRaw m) = ip (SO3.veeBackward g) m := by
      intro m
      rw [SO3.veeBackward, hsm, ← vip_project, SO3.veeRaw]
      simp only [vip, Pi.smul_apply, smul_eq_mul, Finset.mul_sum]
      exact Finset.sum_congr rfl fun i _ => by ring
    simp only [e, vip_project]
    exact ⟨ip_deriv hx _, ip_deriv hx _⟩
  · intro x y x' y' G hx hy
    refine (ip_deriv (hx.mul hy) G).congr_deriv ?_
    rw [ip_add, ip_mul_left, ip_mul_right]; rfl
  · intro x p x' p' g hx hp
    constructor
    · refine (vip_deriv (hx.mulVec hp) g).congr_deriv ?_
      rw [vip_add, vip_mulVec_mat, vip_mulVec g (x 0)]; rfl
    · refine (vip_deriv (hx.transpose.mulVec hp) g).congr_deriv ?_
      have e : (outer3 g (p 0))ᵀ = outer3 (p 0) g := by
        ext i j; simp [outer3, mul_comm]
      rw [vip_add, vip_mulVec_mat, ip_transpose, e, vip_mulVec g (x 0)ᵀ, Matrix.transpose_transpose]
      rfl

/-- The extra operand dimensions of `left_act` and `left_project`. -/
theorem so3_left_backward {ι : Type} [Fintype ι] {k : ℕ} :
    (∀ (x : ℝ → M3) (T : ℝ → ι → Matrix (Fin 3) (Fin k) ℝ) (x' : M3)
        (T' G : ι → Matrix (Fin 3) (Fin k) ℝ), MatDeriv x x' →
      (∀ i, MatDeriv (fun t => T t i) (T' i)) →
      HasDerivAt (fun t => ∑ i, ip (G i) (SO3.leftAct (x t) (T t) i))
        (ip (SO3.leftActBackward (x 0) (T 0) G).1 x'
          + ∑ i, ip ((SO3.leftActBackward (x 0) (T 0) G).2 i) (T' i)) 0) ∧
    (∀ (x : ℝ → M3) (T : ℝ → ι → M3) (x' : M3) (T' : ι → M3) (g : ι → V3), MatDeriv x x' →
      (∀ i, MatDeriv (fun t => T t i) (T' i)) →
      HasDerivAt (fun t => ∑ i, vip (g i) (SO3.leftProject (x t) (T t) i))
        (ip (SO3.leftProjectBackward (x 0) (T 0) g).1 x'
          + ∑ i, ip ((SO3.leftProjectBackward (x 0) (T 0) g).2 i) (T' i)) 0) := by
  have hsum : ∀ {l : ℕ} (A : ι → Matrix (Fin 3) (Fin l) ℝ) (B : Matrix (Fin 3) (Fin l) ℝ),
      ip (∑ i, A i) B = ∑ i, ip (A i) B := by
    intro l A B
    simp only [ip, Matrix.sum_apply, Finset.sum_mul]
    rw [Finset.sum_comm]
    rw [Finset.sum_congr rfl fun j _ => Finset.sum_comm]
    rw [Finset.sum_comm]
    exact Finset.sum_congr rfl fun _ _ => Finset.sum_comm
  constructor
  · intro x T x' T' G hx hT
    refine (HasDerivAt.fun_sum fun i _ => ip_deriv (hx.mul (hT i)) (G i)).congr_deriv ?_
    simp only [ip_add, Finset.sum_add_distrib, SO3.leftActBackward, hsum]
    congr 1
    · exact Finset.sum_congr rfl fun i _ => ip_mul_left _ _ _
    · exact Finset.sum_congr rfl fun i _ => ip_mul_right _ _ _
  · intro x T x' T' g hx hT
    have e : ∀ t i, vip (g i) (SO3.leftProject (x t) (T t) i)
        = ip (SO3.hat (g i)) ((x t)ᵀ * T t i) := fun t i => vip_project _ _
    simp only [e]
    refine (HasDerivAt.fun_sum fun i _ => ip_deriv (hx.transpose.mul (hT i)) _).congr_deriv ?_
    simp only [ip_add, Finset.sum_add_distrib, SO3.leftProjectBackward, SO3.leftActBackward]
    congr 1
    · rw [← ip_transpose, hsum]
      exact Finset.sum_congr rfl fun i _ => ip_mul_left _ _ _
    · exact Finset.sum_congr rfl fun i _ => ip_mul_right _ _ _

/-- `SO3.exp`: the backward pass is the gradient (away from the threshold itself). -/
theorem so3_exp_backward {eps : ℝ} (he : 0 < eps) {x : ℝ → V3} {x' : V3} (hx : VecDeriv x x')
    (h : norm3 (x 0) ≠ eps) (G : M3) :
    HasDerivAt (fun t => ip G (SO3.exp eps (x t))) (vip (SO3.expBackward eps (x 0) G) x') 0 := by
  refine (ip_deriv (SO3.exp_curve he hx h) G).congr_deriv ?_
  rw [ip_mul_right, ip_hat, vip_mulVec]; rfl

/-- `quaternion_to_rotation`: the backward pass is the gradient at every non-zero quaternion. -/
theorem so3_quaternion_backward {x : ℝ → Fin 4 → ℝ} {x' : Fin 4 → ℝ} (hx : VecDeriv x x')
    (h : x 0 ≠ 0) (G : M3) :
    HasDerivAt (fun t => ip G (SO3.ofQuaternion (x t))) (vip (SO3.quaternionBackward (x 0) G) x')
      0 := by
  refine (ip_deriv (so3_quaternion_jac hx h) G).congr_deriv ?_
  rw [ip_mul_right, ip_hat, vip_mulVec]; rfl

/-- The derivative of a curve of rotations is a rotation times a hat. -/
theorem SO3.curve_tangent {x : ℝ → M3} {x' : M3} (hv : ∀ t, SO3.Valid (x t)) (hx : MatDeriv x x') :
    ∃ w, x' = x 0 * SO3.hat w := by
  have hskew : (x 0)ᵀ * x' + x'ᵀ * x 0 = 0 := by
    have h1 := hx.transpose.mul hx
    ext i j
    have h2 := h1 i j
    have h3 : (fun t => ((x t)ᵀ * x t) i j) = fun _ => (1 : M3) i j := by
      funext t; rw [(hv t).1]
    rw [h3] at h2
    have := h2.unique (hasDerivAt_const (0 : ℝ) ((1 : M3) i j))
    simp only [Matrix.add_apply] at this
    simp only [Matrix.add_apply, Matrix.zero_apply]
    linarith
  obtain ⟨w, hw⟩ : ∃ w, (x 0)ᵀ * x' = SO3.hat w := by
    refine ⟨SO3.veeRaw ((x 0)ᵀ * x'), ?_⟩
    have ht : ((x 0)ᵀ * x')ᵀ = x'ᵀ * x 0 := by rw [Matrix.transpose_mul, Matrix.transpose_transpose]
    rw [← ht] at hskew
    generalize (x 0)ᵀ * x' = S at hskew
    have hs : ∀ i j, S i j + S j i = 0 := fun i j => by
      have := congrFun (congrFun hskew i) j
      simpa using this
    ext i j
    have h00 := hs 0 0
    have h11 := hs 1 1
    have h22 := hs 2 2
    have h01 := hs 0 1
    have h02 := hs 0 2
    have h12 := hs 1 2
    fin_cases i <;> fin_cases j <;> simp [SO3.hat, SO3.veeRaw, SO3.project] <;> linarith
  refine ⟨w, ?_⟩
  rw [← hw, ← Matrix.mul_assoc, SO3.orth_left (hv 0).1, Matrix.one_mul]

/-- `SO3.log`: along curves of rotations the backward pass is the gradient, wherever the Jacobian
of the logarithm is (`so3_log_jac_partial`). -/
theorem so3_log_backward_partial {eps deps epi : ℝ} (he : 0 < eps) (hd : 0 < deps) (hpi0 : 0 ≤ epi)
    (hpi : epi < 2) {x : ℝ → M3} {x' : M3} (hv : ∀ t, (x t)ᵀ * x t = 1 ∧ (x t).det = 1)
    (hx : MatDeriv x x')
    (h : (eps < SO3.theta (x 0) ∧ deps ≤ SO3.theta (x 0) ∧ SO3.BranchOk epi (x 0)) ∨ x 0 = 1)
    (g : V3) :
    HasDerivAt (fun t => vip g (SO3.log eps epi (x t)))
      (ip (SO3.logBackward eps deps epi (x 0) g) x') 0 := by
  obtain ⟨w, hx'⟩ := SO3.curve_tangent hv hx
  have hjac := so3_log_jac_partial he hd hpi0 hpi (hv 0) h x w rfl
    ⟨hv, by rw [hx'] at hx; exact hx⟩
  refine (vip_deriv hjac g).congr_deriv ?_
  rw [hx', ip_mul_right, SO3.logBackward, ← Matrix.mul_assoc, (hv 0).1, Matrix.one_mul, ip_hat_hat,
    vip_mulVec]
  rw [Matrix.transpose_smul, Matrix.smul_mulVec]
  simp only [vip, Pi.smul_apply, smul_eq_mul, Finset.mul_sum]
  exact Finset.sum_congr rfl fun i _ => by ring

/-- The three code paths for the axis in `log` compute the same vector. -/
theorem so3_sine_axis_paths (R : M3) :
    SO3.sineAxisCuda R = SO3.sineAxis R ∧ SO3.sineAxisFast R = SO3.sineAxis R := by
  constructor <;> ext i <;> fin_cases i <;>
    simp [SO3.sineAxisCuda, SO3.sineAxisFast, SO3.sineAxis] <;> ring

/-! ## SE3 -/

theorem SE3.Deriv.lin_comp {x : ℝ → SE3} {x'} (h : SE3.Deriv x x') :
    VecDeriv (fun t => (x t).t) x'.t := h.2

/-- `SE3`: the same for the operations given by formulas. -/
theorem se3_backward :
    (∀ (x : ℝ → SE3) (x' G : SE3), SE3.Deriv x x' →
      HasDerivAt (fun t => sip G (SE3.inverse (x t))) (sip (SE3.inverseBackward (x 0) G) x') 0) ∧
    (∀ (x : ℝ → SE3) (x' : SE3) (A B C D : M3), SE3.Deriv x x' →
      HasDerivAt (fun t => ip (SE3.block A B C D) (SE3.adjoint (x t)))
        (sip (SE3.adjointBackward (x 0) A B D) x') 0) ∧
    (∀ (v : ℝ → Fin 6 → ℝ) (v' : Fin 6 → ℝ), VecDeriv v v' →
      (∀ G, HasDerivAt (fun t => ip G (SE3.hat (v t))) (vip (SE3.hatBackward G) v') 0) ∧
      (∀ G, HasDerivAt (fun t => sip G (SE3.lift (v t))) (vip (SE3.project G) v') 0)) ∧
    (∀ (x : ℝ → Matrix (Fin 4) (Fin 4) ℝ) (x' : Matrix (Fin 4) (Fin 4) ℝ) (g : Fin 6 → ℝ),
      MatDeriv x x' →
      HasDerivAt (fun t => vip g (SE3.veeRaw (x t))) (ip (SE3.veeBackward g) x') 0) ∧
    (∀ (x : ℝ → SE3) (x' : SE3) (g : Fin 6 → ℝ), SE3.Deriv x x' →
      HasDerivAt (fun t => vip g (SE3.project (x t))) (sip (SE3.lift g) x') 0) ∧
    (∀ (x y : ℝ → SE3) (x' y' G : SE3), SE3.Deriv x x' → SE3.Deriv y y' →
      HasDerivAt (fun t => sip G ((x t).compose (y t)))
        (sip (SE3.composeBackward (x 0) (y 0) G).1 x'
          + sip (SE3.composeBackward (x 0) (y 0) G).2 y') 0) ∧
    (∀ (x : ℝ → SE3) (p : ℝ → V3) (x' : SE3) (p' g : V3), SE3.Deriv x x' → VecDeriv p p' →
      HasDerivAt (fun t => vip g ((x t).transform (p t)))
        (sip (SE3.transformBackward (x 0) (p 0) g).1 x'
          + vip (SE3.transformBackward (x 0) (p 0) g).2 p') 0 ∧
      HasDerivAt (fun t => vip g ((x t).untransform (p t)))
        (sip (SE3.untransformBackward (x 0) (p 0) g).1 x'
          + vip (SE3.untransformBackward (x 0) (p 0) g).2 p') 0) := by
  have hneg : ∀ u v : V3, vip u (-v) = -vip u v := by
    intro u v; simp [vip, Finset.sum_neg_distrib]
  have hnegl : ∀ u v : V3, vip (-u) v = -vip u v := by
    intro u v; simp [vip, Finset.sum_neg_distrib]
  have houter : ∀ (u v : V3) (M : M3), ip (outer3 u v) Mᵀ = ip (outer3 v u) M := by
    intro u v M
    rw [ip_transpose]; congr 1; ext i j; simp [outer3, mul_comm]
  have hsubl : ∀ A B C : M3, ip (A - B) C = ip A C - ip B C := by
    intro A B C; simp only [ip, Matrix.sub_apply, sub_mul, Finset.sum_sub_distrib]
  have haddl : ∀ A B C : M3, ip (A + B) C = ip A C + ip B C := by
    intro A B C; simp only [ip, Matrix.add_apply, add_mul, Finset.sum_add_distrib]
  refine ⟨?_, ?_, ?_, ?_, ?_, ?_, ?_⟩
  · intro x x' G hx
    have hd : SE3.Deriv (fun t => SE3.inverse (x t))
        ⟨x'.Rᵀ, -(x'.Rᵀ *ᵥ (x 0).t + (x 0).Rᵀ *ᵥ x'.t)⟩ := by
      refine ⟨hx.1.transpose, ?_⟩
      have := hx.1.transpose.mulVec hx.2
      intro i
      refine (this i).neg.congr_of_eventuallyEq ?_
      filter_upwards with t
      simp [SE3.inverse, Matrix.neg_mulVec]
    refine (sip_deriv hd G).congr_deriv ?_
    simp only [sip, SE3.inverseBackward, hneg, vip_add, hsubl, Matrix.neg_mulVec, hnegl]
    rw [vip_mulVec_mat G.t x'.Rᵀ, vip_mulVec G.t (x 0).Rᵀ, ip_transpose, ip_transpose,
      Matrix.transpose_transpose]
    have : (outer3 G.t (x 0).t)ᵀ = outer3 (x 0).t G.t := by
      ext i j; simp [outer3, mul_comm]
    rw [this]; ring
  · intro x x' A B C D hx
    have hb : ∀ g : SE3, ip (SE3.block A B C D) (SE3.adjoint g)
        = ip A g.R + ip B (SO3.hat g.t * g.R) + ip D g.R := by
      intro g
      simp [ip, SE3.adjoint, SE3.block, Fin.sum_univ_succ]
      ring
    simp only [hb]
    have hhat : MatDeriv (fun t => SO3.hat (x t).t) (SO3.hat x'.t) := by
      intro i j
      have h0 := hx.2 0
      have h1 := hx.2 1
      have h2 := hx.2 2
      have hc := hasDerivAt_const (0 : ℝ) (0 : ℝ)
      fin_cases i <;> fin_cases j <;> simp only [SO3.hat]
      · exact hc
      · exact h2.neg
      · exact h1
      · exact h2
      · exact hc
      · exact h0.neg
      · exact h1.neg
      · exact h0
      · exact hc
    refine (((ip_deriv hx.1 A).fun_add (ip_deriv (hhat.mul hx.1) B)).fun_add
      (ip_deriv hx.1 D)).congr_deriv ?_
    rw [ip_add, ip_mul_left, ip_mul_right, ip_hat]
    have hT : (SO3.hat (x 0).t)ᵀ = -SO3.hat (x 0).t := by
      ext i j; fin_cases i <;> fin_cases j <;> simp [SO3.hat]
    rw [hT, Matrix.neg_mul]
    simp only [sip, SE3.adjointBackward, hsubl, haddl]
    have : ip (-(SO3.hat (x 0).t * B)) x'.R = -ip (SO3.hat (x 0).t * B) x'.R := by
      simp [ip, Finset.sum_neg_distrib]
    rw [this]; ring
  · intro v v' hv
    constructor
    · intro G
      have e : ∀ w, ip G (SE3.hat w) = vip (SE3.hatBackward G) w := by
        intro w
        simp [ip, vip, SE3.hat, SE3.hom, SO3.hat, SE3.ang, SE3.lin, SE3.hatBackward,
          Fin.sum_univ_succ]
        ring
      simp only [e]
      exact vip_deriv hv _
    · intro G
      have e : ∀ w, sip G (SE3.lift w) = vip (SE3.project G) w := by
        intro w
        rw [SE3.project, vip_join, sip, SE3.lift, ip_hat]; ring
      simp only [e]
      exact vip_deriv hv _
  · intro x x' g hx
    have e : ∀ m, vip g (SE3.veeRaw m) = ip (SE3.veeBackward g) m := by
      intro m
      simp [ip, vip, SE3.veeRaw, SE3.veeBackward, SE3.hom, SO3.hat, SE3.ang, SE3.lin,
        Fin.sum_univ_succ]
      ring
    simp only [e]
    exact ip_deriv hx _
  · intro x x' g hx
    have e : ∀ m, vip g (SE3.project m) = sip (SE3.lift g) m := by
      intro m
      rw [SE3.project, vip_split, sip, SE3.lift, ← vip_project, SE3.lin_join, SE3.ang_join]; ring
    simp only [e]
    exact sip_deriv hx _
  · intro x y x' y' G hx hy
    have hd : SE3.Deriv (fun t => (x t).compose (y t))
        ⟨x'.R * (y 0).R + (x 0).R * y'.R, x'.R *ᵥ (y 0).t + (x 0).R *ᵥ y'.t + x'.t⟩ :=
      ⟨hx.1.mul hy.1, fun i => (hx.1.mulVec hy.2 i).fun_add (hx.2 i)⟩
    refine (sip_deriv hd G).congr_deriv ?_
    simp only [sip, SE3.composeBackward, ip_add, vip_add, ip_mul_left G.R x'.R,
      ip_mul_right G.R (x 0).R, vip_mulVec_mat, vip_mulVec G.t (x 0).R, haddl]
    ring
  · intro x p x' p' g hx hp
    constructor
    · refine ((vip_deriv hx.2 g).fun_add (vip_deriv (hx.1.mulVec hp) g)).congr_of_eventuallyEq
        ?_ |>.congr_deriv ?_
      · filter_upwards with t
        simp only [SE3.transform, vip_add]
      · rw [vip_add, vip_mulVec_mat, vip_mulVec]
        simp only [sip, SE3.transformBackward]; ring
    · have hsub : VecDeriv (fun t => p t - (x t).t) (p' - x'.t) := fun i => (hp i).fun_sub (hx.2 i)
      refine (vip_deriv (hx.1.transpose.mulVec hsub) g).congr_deriv ?_
      rw [vip_add, vip_mulVec_mat, houter, vip_mulVec, Matrix.transpose_transpose,
        sub_eq_add_neg p', vip_add, hneg]
      simp only [sip, SE3.untransformBackward, hnegl]; ring

/-- `SE3`: `left_act` and `left_project`. -/
theorem se3_left_backward {ι : Type} [Fintype ι] {k : ℕ} :
    (∀ (x : ℝ → SE3) (T : ℝ → ι → Matrix (Fin 3) (Fin k) ℝ) (x' : SE3)
        (T' G : ι → Matrix (Fin 3) (Fin k) ℝ), SE3.Deriv x x' →
      (∀ i, MatDeriv (fun t => T t i) (T' i)) →
      HasDerivAt (fun t => ∑ i, ip (G i) (SE3.leftAct (x t) (T t) i))
        (sip (SE3.leftActBackward (x 0) (T 0) G).1 x'
          + ∑ i, ip ((SE3.leftActBackward (x 0) (T 0) G).2 i) (T' i)) 0) ∧
    (∀ (x : ℝ → SE3) (T : ℝ → ι → SE3) (x' : SE3) (T' : ι → SE3) (d : ι → Fin 6 → ℝ),
      SE3.Deriv x x' → (∀ i, SE3.Deriv (fun t => T t i) (T' i)) →
      HasDerivAt (fun t => ∑ i, vip (d i) (SE3.leftProject (x t) (T t) i))
        (sip (SE3.leftProjectBackward (x 0) (T 0) d).1 x'
          + ∑ i, sip ((SE3.leftProjectBackward (x 0) (T 0) d).2 i) (T' i)) 0) := by
  have h0 : ∀ v : V3, vip 0 v = 0 := fun v => by simp [vip]
  have hsum : ∀ (A : ι → M3) (B : M3), ip (∑ i, A i) B = ∑ i, ip (A i) B := by
    intro A B
    simp only [ip, Matrix.sum_apply, Finset.sum_mul]
    rw [Finset.sum_comm]
    rw [Finset.sum_congr rfl fun j _ => Finset.sum_comm]
    rw [Finset.sum_comm]
    exact Finset.sum_congr rfl fun _ _ => Finset.sum_comm
  constructor
  · intro x T x' T' G hx hT
    refine ((so3_left_backward (ι := ι) (k := k)).1 (fun t => (x t).R) T x'.R T' G hx.1
      hT).congr_deriv ?_
    simp only [sip, SE3.leftActBackward, h0, add_zero]
  · intro x T x' T' d hx hT
    have e : ∀ t i, vip (d i) (SE3.leftProject (x t) (T t) i)
        = ip (SO3.hat (SE3.ang (d i))) ((x t).Rᵀ * (T t i).R)
          + vip (SE3.lin (d i)) ((x t).Rᵀ *ᵥ (T t i).t) := by
      intro t i
      rw [SE3.leftProject, SE3.project, vip_split, SE3.lin_join, SE3.ang_join, vip_project]
      simp only [SE3.inverse]; ring
    simp only [e]
    refine (HasDerivAt.fun_sum fun i _ =>
      (ip_deriv (hx.1.transpose.mul (hT i).1) _).fun_add
        (vip_deriv (hx.1.transpose.mulVec (hT i).2) _)).congr_deriv ?_
    simp only [sip, SE3.leftProjectBackward, h0, add_zero]
    rw [← ip_transpose, hsum, ← Finset.sum_add_distrib]
    refine Finset.sum_congr rfl fun i _ => ?_
    have haddl : ∀ A B C : M3, ip (A + B) C = ip A C + ip B C := by
      intro A B C; simp only [ip, Matrix.add_apply, add_mul, Finset.sum_add_distrib]
    rw [ip_add, vip_add, ip_mul_left, vip_mulVec_mat, haddl,
      ip_mul_right _ (x 0).Rᵀ, vip_mulVec _ (x 0).Rᵀ, Matrix.transpose_transpose]
    simp only [SE3.lift]
    ring

/-- `SE3.exp`: the backward pass is the gradient beyond the threshold and at zero rotation. -/
theorem se3_exp_backward_partial {eps : ℝ} (he : 0 < eps) {x : ℝ → Fin 6 → ℝ} {x' : Fin 6 → ℝ}
    (hx : VecDeriv x x')
    (h : eps < norm3 ![x 0 3, x 0 4, x 0 5] ∨ (x 0 3 = 0 ∧ x 0 4 = 0 ∧ x 0 5 = 0)) (G : SE3) :
    HasDerivAt (fun t => sip G (SE3.exp eps (x t))) (vip (SE3.expBackward eps (x 0) G) x') 0 := by
  have hc := SE3.exp_curve he hx (by
    rcases h with h | ⟨h1, h2, h3⟩
    · left; exact h
    · right; ext i; fin_cases i <;> simp [SE3.ang, h1, h2, h3])
  obtain ⟨-, hR, hT⟩ := SE3.tangent_iff.mp hc
  refine ((ip_deriv hR G.R).fun_add (vip_deriv hT G.t)).congr_deriv ?_
  rw [ip_mul_right, ip_hat, SE3.expBackward,
    ← vip_mulVec (SE3.project _) (SE3.jexp eps (x 0)) x', SE3.project, vip_join, vip_mulVec G.t]
  ring

/-- `SE3.log`: along curves of poses the backward pass is the gradient, wherever the Jacobian of
the logarithm is. -/
theorem se3_log_backward_partial {eps deps epi : ℝ} (he : 0 < eps) (hd : 0 < deps) (hpi0 : 0 ≤ epi)
    (hpi : epi < 2) {x : ℝ → SE3} {x' : SE3} (hv : ∀ t, (x t).Rᵀ * (x t).R = 1 ∧ (x t).R.det = 1)
    (hx : SE3.Deriv x x')
    (h : (eps < SO3.theta (x 0).R ∧ deps ≤ SO3.theta (x 0).R ∧ SO3.BranchOk epi (x 0).R) ∨
      (x 0).R = 1)
    (d : Fin 6 → ℝ) :
    HasDerivAt (fun t => vip d (SE3.log eps epi (x t)))
      (sip (SE3.logBackward eps deps epi (x 0) d) x') 0 := by
  obtain ⟨w, hw⟩ := SO3.curve_tangent (x := fun t => (x t).R) (fun t => hv t) hx.1
  have hinv : (x 0).R * (x 0).Rᵀ = 1 := SO3.orth_left (hv 0).1
  have ht : x'.t = (x 0).R *ᵥ ((x 0).Rᵀ *ᵥ x'.t) := by
    rw [Matrix.mulVec_mulVec, hinv, Matrix.one_mulVec]
  have hT : SE3.emb.Tangent x (SE3.join ((x 0).Rᵀ *ᵥ x'.t) w) := by
    refine SE3.tangent_iff.mpr ⟨hv, ?_, ?_⟩
    · rw [SE3.ang_join]
      have h1 := hx.1
      rw [hw] at h1
      exact h1
    · rw [SE3.lin_join, ← ht]; exact hx.2
  have hjac := se3_log_jac_partial he hd hpi0 hpi (hv 0) h x _ rfl hT
  refine (vip_deriv hjac d).congr_deriv ?_
  rw [vip_mulVec]
  simp only [sip, SE3.logBackward, SE3.lift, SE3.lin_join, SE3.ang_join]
  rw [hw, ip_mul_right, ← Matrix.mul_assoc, (hv 0).1, Matrix.one_mul, ip_hat_hat]
  rw [vip_split _ (SE3.join _ _), SE3.lin_join, SE3.ang_join]
  rw [vip_mulVec _ (x 0).Rᵀ, Matrix.transpose_transpose]
  have e : vip ((1 / 2 : ℝ) • SE3.ang ((SE3.jlog eps deps epi (x 0))ᵀ *ᵥ d)) w
      = 1 / 2 * vip (SE3.ang ((SE3.jlog eps deps epi (x 0))ᵀ *ᵥ d)) w := by
    simp only [vip, Pi.smul_apply, smul_eq_mul, Finset.mul_sum, mul_assoc]
  rw [e]
  ring

/-! ## Normalize -/

theorem SO3.signLast_eq (M : M3) (σ : ℝ) : SO3.signLast M σ = M * Matrix.diagonal ![1, 1, σ] := by
  ext i j
  rw [Matrix.mul_diagonal]
  fin_cases j <;> simp [SO3.signLast]

theorem SO3.normalizeOf_eq {u v : M3} (hu : uᵀ * u = 1) (hv : vᵀ * v = 1) :
    SO3.normalizeOf u v = u * Matrix.diagonal ![1, 1, u.det * v.det] * vᵀ ∧
      (u.det * v.det) ^ 2 = 1 := by
  have h1 : u.det * v.det = 1 ∨ u.det * v.det = -1 := by
    rcases SO3.orth_det hu with h | h <;> rcases SO3.orth_det hv with h' | h' <;> simp [h, h']
  rcases h1 with h | h
  · rw [SO3.normalizeOf_pos (by rw [h]; exact one_pos), h]
    have : (Matrix.diagonal ![1, 1, 1] : M3) = 1 := by
      rw [← Matrix.diagonal_one]; congr 1; ext i; fin_cases i <;> rfl
    rw [this, Matrix.mul_one]; simp
  · rw [SO3.normalizeOf_neg (by rw [h]; norm_num), h, Matrix.transpose_mul, SO3.flip_transpose,
      Matrix.mul_assoc]
    exact ⟨rfl, by norm_num⟩

/-- In the coordinates of the SVD the backward pass is, off the diagonal, this. -/
theorem SO3.normalizeBackward_coords {u v G : M3} {s : V3} (hu : uᵀ * u = 1) (hv : vᵀ * v = 1) :
    uᵀ * SO3.normalizeBackward u s v G * v = Matrix.of fun i j =>
      let d : V3 := ![1, 1, u.det * v.det]
      let g := uᵀ * G * v
      SO3.normF s i j * ((g i j * d j - d i * g j i) * s j + s i * (g j i * d j - d i * g i j)) := by
  set d : V3 := ![1, 1, u.det * v.det] with hd
  set g := uᵀ * G * v with hg
  have e1 : uᵀ * (G * SO3.signLast v (u.det * v.det)) = g * Matrix.diagonal d := by
    rw [SO3.signLast_eq, hg]; simp only [Matrix.mul_assoc]; rfl
  have e2 : vᵀ * (Gᵀ * SO3.signLast u (u.det * v.det)) = gᵀ * Matrix.diagonal d := by
    rw [SO3.signLast_eq, hg]
    simp only [Matrix.transpose_mul, Matrix.transpose_transpose, Matrix.mul_assoc]; rfl
  have e3 : ∀ M : M3, (Matrix.of fun i j => M i j * s j : M3) = M * Matrix.diagonal s := by
    intro M; ext i j; rw [Matrix.mul_diagonal]; rfl
  have e4 : ∀ M : M3, (Matrix.of fun i j => s i * M i j : M3) = Matrix.diagonal s * M := by
    intro M; ext i j; rw [Matrix.diagonal_mul]; rfl
  unfold SO3.normalizeBackward
  simp only [e1, e2, e3, e4]
  rw [Matrix.mul_add, Matrix.add_mul]
  set X : M3 := Matrix.of fun i j => SO3.normF s i j * SO3.skewSymm (g * Matrix.diagonal d) i j
  set Y : M3 := Matrix.of fun i j => SO3.normF s i j * SO3.skewSymm (gᵀ * Matrix.diagonal d) i j
  have f1 : uᵀ * (u * X * Matrix.diagonal s * vᵀ) * v = X * Matrix.diagonal s := by
    calc uᵀ * (u * X * Matrix.diagonal s * vᵀ) * v
        = (uᵀ * u) * (X * Matrix.diagonal s) * (vᵀ * v) := by simp only [Matrix.mul_assoc]
      _ = _ := by rw [hu, hv, Matrix.one_mul, Matrix.mul_one]
  have f2 : uᵀ * (u * (Matrix.diagonal s * (Y * vᵀ))) * v = Matrix.diagonal s * Y := by
    calc uᵀ * (u * (Matrix.diagonal s * (Y * vᵀ))) * v
        = (uᵀ * u) * (Matrix.diagonal s * Y) * (vᵀ * v) := by simp only [Matrix.mul_assoc]
      _ = _ := by rw [hu, hv, Matrix.one_mul, Matrix.mul_one]
  rw [f1, f2]
  ext i j
  rw [Matrix.add_apply, Matrix.mul_diagonal, Matrix.diagonal_mul]
  simp only [X, Y, Matrix.of_apply, SO3.skewSymm, Matrix.sub_apply, Matrix.mul_diagonal,
    Matrix.transpose_apply]
  ring

/-- `normalize`: where the singular values of the matrix are pairwise different, and wherever the
normalised matrix has a derivative, the backward pass is the gradient. -/
theorem so3_normalize_backward_partial {A u v : ℝ → M3} {s : ℝ → V3}
    (hsvd : ∀ t, IsSvd (A t) (u t) (s t) (v t)) {A' R' : M3} (hA : MatDeriv A A')
    (hR : MatDeriv (fun t => SO3.normalizeOf (u t) (v t)) R')
    (h01 : s 0 0 ≠ s 0 1) (h12 : s 0 1 ≠ s 0 2) (G : M3) :
    HasDerivAt (fun t => ip G (SO3.normalizeOf (u t) (v t)))
      (ip (SO3.normalizeBackward (u 0) (s 0) (v 0) G) A') 0 := by
  refine (ip_deriv hR G).congr_deriv ?_
  obtain ⟨hu, hv, hAe, hs01, hs12, hs2⟩ := hsvd 0
  obtain ⟨hRe, hσ⟩ := SO3.normalizeOf_eq hu hv
  obtain ⟨w, hw⟩ := SO3.curve_tangent (x := fun t => SO3.normalizeOf (u t) (v t))
    (fun t => SO3.normalizeOf_valid (hsvd t).uu (hsvd t).vv) hR
  have hRv := SO3.normalizeOf_valid hu hv
  -- `Rᵀ A` is symmetric for every `t`
  have hsym : ∀ t, (SO3.normalizeOf (u t) (v t))ᵀ * A t
      = ((SO3.normalizeOf (u t) (v t))ᵀ * A t)ᵀ := by
    intro t
    obtain ⟨hut, hvt, hAt, -, -, -⟩ := hsvd t
    have e : (SO3.normalizeOf (u t) (v t))ᵀ * A t
        = v t * (Matrix.diagonal ![1, 1, (u t).det * (v t).det] * Matrix.diagonal (s t)) * (v t)ᵀ := by
      rw [(SO3.normalizeOf_eq hut hvt).1]
      conv_lhs => rw [hAt]
      simp only [Matrix.transpose_mul, Matrix.transpose_transpose, Matrix.diagonal_transpose]
      rw [show v t * (Matrix.diagonal ![1, 1, (u t).det * (v t).det] * (u t)ᵀ)
          * (u t * Matrix.diagonal (s t) * (v t)ᵀ)
          = v t * (Matrix.diagonal ![1, 1, (u t).det * (v t).det] * ((u t)ᵀ * u t)
            * Matrix.diagonal (s t)) * (v t)ᵀ by simp only [Matrix.mul_assoc], hut, Matrix.mul_one]
    rw [e, Matrix.diagonal_mul_diagonal]
    simp only [Matrix.transpose_mul, Matrix.transpose_transpose, Matrix.diagonal_transpose,
      Matrix.mul_assoc]
  set R := SO3.normalizeOf (u 0) (v 0) with hRdef
  have hd1 : R'ᵀ * A 0 + Rᵀ * A' = (R'ᵀ * A 0 + Rᵀ * A')ᵀ := by
    have h1 := hR.transpose.mul hA
    have h2 := h1.transpose
    have h3 : (fun t => ((SO3.normalizeOf (u t) (v t))ᵀ * A t)ᵀ)
        = fun t => (SO3.normalizeOf (u t) (v t))ᵀ * A t := by
      funext t; exact (hsym t).symm
    rw [h3] at h2
    ext i j
    exact (h1 i j).unique (h2 i j)
  -- coordinates
  set σ := (u 0).det * (v 0).det
  set d : V3 := ![1, 1, σ] with hd
  set g := (u 0)ᵀ * G * v 0 with hg
  set a := (u 0)ᵀ * A' * v 0 with ha
  set ω := (v 0)ᵀ * SO3.hat w * v 0 with hω
  have huu : u 0 * (u 0)ᵀ = 1 := SO3.orth_left hu
  have hvv : v 0 * (v 0)ᵀ = 1 := SO3.orth_left hv
  have hωskew : ∀ i j, ω j i = -ω i j := by
    have hT : (SO3.hat w)ᵀ = -SO3.hat w := by
      ext i j; fin_cases i <;> fin_cases j <;> simp [SO3.hat]
    have : ωᵀ = -ω := by
      rw [hω]
      simp only [Matrix.transpose_mul, Matrix.transpose_transpose, hT, Matrix.neg_mul,
        Matrix.mul_neg, Matrix.mul_assoc]
    intro i j
    have := congrFun (congrFun this i) j
    simpa using this
  have hRω : (u 0)ᵀ * R' * v 0 = Matrix.diagonal d * ω := by
    rw [hw, hRe, hω]
    calc (u 0)ᵀ * (u 0 * Matrix.diagonal ![1, 1, (u 0).det * (v 0).det] * (v 0)ᵀ * SO3.hat w) * v 0
        = ((u 0)ᵀ * u 0) * Matrix.diagonal d * ((v 0)ᵀ * SO3.hat w * v 0) := by
          simp only [Matrix.mul_assoc]; rfl
      _ = _ := by rw [hu, Matrix.one_mul]
  have hrel : ∀ i j, ω i j * (d i * s 0 i + d j * s 0 j) = d i * a i j - d j * a j i := by
    have e1 : (v 0)ᵀ * (R'ᵀ * A 0 + Rᵀ * A') * v 0
        = -(ω * (Matrix.diagonal d * Matrix.diagonal (s 0))) + Matrix.diagonal d * a := by
      have hωT : ωᵀ = -ω := by
        ext i j; simp only [Matrix.transpose_apply, Matrix.neg_apply]; exact hωskew i j
      have p1 : (v 0)ᵀ * (R'ᵀ * A 0) * v 0
          = ((u 0)ᵀ * R' * v 0)ᵀ * Matrix.diagonal (s 0) := by
        conv_lhs => rw [hAe]
        calc (v 0)ᵀ * (R'ᵀ * (u 0 * Matrix.diagonal (s 0) * (v 0)ᵀ)) * v 0
            = (v 0)ᵀ * R'ᵀ * u 0 * Matrix.diagonal (s 0) * ((v 0)ᵀ * v 0) := by
              simp only [Matrix.mul_assoc]
          _ = _ := by
            rw [hv, Matrix.mul_one]
            simp only [Matrix.transpose_mul, Matrix.transpose_transpose, Matrix.mul_assoc]
      have p2 : (v 0)ᵀ * (Rᵀ * A') * v 0 = Matrix.diagonal d * a := by
        rw [hRe]
        calc (v 0)ᵀ * ((u 0 * Matrix.diagonal ![1, 1, (u 0).det * (v 0).det] * (v 0)ᵀ)ᵀ * A') * v 0
            = ((v 0)ᵀ * v 0) * (Matrix.diagonal d * ((u 0)ᵀ * A' * v 0)) := by
              simp only [Matrix.transpose_mul, Matrix.transpose_transpose,
                Matrix.diagonal_transpose, Matrix.mul_assoc]; rfl
          _ = _ := by rw [hv, Matrix.one_mul]
      rw [Matrix.mul_add, Matrix.add_mul, p1, p2, hRω, Matrix.transpose_mul, hωT,
        Matrix.diagonal_transpose, Matrix.neg_mul, Matrix.neg_mul, Matrix.mul_assoc]
    have e2 : ((v 0)ᵀ * (R'ᵀ * A 0 + Rᵀ * A') * v 0)ᵀ = (v 0)ᵀ * (R'ᵀ * A 0 + Rᵀ * A') * v 0 := by
      conv_rhs => rw [hd1]
      simp only [Matrix.transpose_mul, Matrix.transpose_transpose, Matrix.mul_assoc]
    rw [e1] at e2
    intro i j
    have := congrFun (congrFun e2 i) j
    simp only [Matrix.transpose_apply, Matrix.add_apply, Matrix.neg_apply,
      Matrix.diagonal_mul_diagonal, Matrix.mul_diagonal, Matrix.diagonal_mul] at this
    rw [hωskew i j] at this
    linarith
  have hip : ∀ X Y : M3, ip X Y = ip ((u 0)ᵀ * X * v 0) ((u 0)ᵀ * Y * v 0) := by
    intro X Y
    rw [ip_mul_left, ip_mul_right, Matrix.transpose_transpose]
    congr 1
    calc X = (u 0 * (u 0)ᵀ) * X * (v 0 * (v 0)ᵀ) := by
          rw [huu, hvv, Matrix.one_mul, Matrix.mul_one]
      _ = _ := by simp only [Matrix.mul_assoc]
  have hB : (u 0)ᵀ * SO3.normalizeBackward (u 0) (s 0) (v 0) G * v 0 = Matrix.of fun i j =>
      SO3.normF (s 0) i j * ((g i j * d j - d i * g j i) * s 0 j
        + s 0 i * (g j i * d j - d i * g i j)) := SO3.normalizeBackward_coords hu hv
  have hd0 : d 0 = 1 := rfl
  have hd1' : d 1 = 1 := rfl
  have hd2 : d 2 = σ := rfl
  rw [hip G R', hip _ A', hRω, hB]
  have hF : ∀ i j, s 0 j ^ 2 - s 0 i ^ 2 ≠ 0 → SO3.normF (s 0) i j = (s 0 j ^ 2 - s 0 i ^ 2)⁻¹ := by
    intro i j h; simp [SO3.normF, h]
  have h02' : s 0 2 < s 0 0 := lt_of_lt_of_le (lt_of_le_of_ne hs12 (Ne.symm h12)) hs01
  have h01' : s 0 1 < s 0 0 := lt_of_le_of_ne hs01 (Ne.symm h01)
  have h12' : s 0 2 < s 0 1 := lt_of_le_of_ne hs12 (Ne.symm h12)
  have d01 : s 0 0 ^ 2 - s 0 1 ^ 2 ≠ 0 := by nlinarith
  have d02 : s 0 0 ^ 2 - s 0 2 ^ 2 ≠ 0 := by nlinarith
  have d12 : s 0 1 ^ 2 - s 0 2 ^ 2 ≠ 0 := by nlinarith
  have d10 : s 0 1 ^ 2 - s 0 0 ^ 2 ≠ 0 := by nlinarith
  have d20 : s 0 2 ^ 2 - s 0 0 ^ 2 ≠ 0 := by nlinarith
  have d21 : s 0 2 ^ 2 - s 0 1 ^ 2 ≠ 0 := by nlinarith
  -- the three independent entries of `ω`
  have r01 := hrel 0 1
  have r02 := hrel 0 2
  have r12 := hrel 1 2
  have s10 := hωskew 0 1
  have s20 := hωskew 0 2
  have s21 := hωskew 1 2
  have z0 : ω 0 0 = 0 := by have := hωskew 0 0; linarith
  have z1 : ω 1 1 = 0 := by have := hωskew 1 1; linarith
  have z2 : ω 2 2 = 0 := by have := hωskew 2 2; linarith
  have w01 : ω 0 1 = (a 0 1 - a 1 0) * (s 0 0 - s 0 1) * (s 0 0 ^ 2 - s 0 1 ^ 2)⁻¹ := by
    rw [eq_mul_inv_iff_mul_eq₀ d01]
    simp only [hd, Matrix.cons_val_zero, Matrix.cons_val_one] at r01
    linear_combination (s 0 0 - s 0 1) * r01
  have w02 : ω 0 2 = (a 0 2 - σ * a 2 0) * (s 0 0 - σ * s 0 2) * (s 0 0 ^ 2 - s 0 2 ^ 2)⁻¹ := by
    rw [eq_mul_inv_iff_mul_eq₀ d02]
    simp only [hd, Matrix.cons_val_zero, Matrix.cons_val] at r02
    linear_combination (s 0 0 - σ * s 0 2) * r02 + ω 0 2 * s 0 2 ^ 2 * hσ
  have w12 : ω 1 2 = (a 1 2 - σ * a 2 1) * (s 0 1 - σ * s 0 2) * (s 0 1 ^ 2 - s 0 2 ^ 2)⁻¹ := by
    rw [eq_mul_inv_iff_mul_eq₀ d12]
    simp only [hd, Matrix.cons_val_one, Matrix.cons_val] at r12
    linear_combination (s 0 1 - σ * s 0 2) * r12 + ω 1 2 * s 0 2 ^ 2 * hσ
  have i10 : (s 0 1 ^ 2 - s 0 0 ^ 2)⁻¹ = -(s 0 0 ^ 2 - s 0 1 ^ 2)⁻¹ := by
    rw [← inv_neg]; congr 1; ring
  have i20 : (s 0 2 ^ 2 - s 0 0 ^ 2)⁻¹ = -(s 0 0 ^ 2 - s 0 2 ^ 2)⁻¹ := by
    rw [← inv_neg]; congr 1; ring
  have i21 : (s 0 2 ^ 2 - s 0 1 ^ 2)⁻¹ = -(s 0 1 ^ 2 - s 0 2 ^ 2)⁻¹ := by
    rw [← inv_neg]; congr 1; ring
  have f00 : SO3.normF (s 0) 0 0 = 0 := by simp [SO3.normF]
  have f11 : SO3.normF (s 0) 1 1 = 0 := by simp [SO3.normF]
  have f22 : SO3.normF (s 0) 2 2 = 0 := by simp [SO3.normF]
  simp only [ip, Fin.sum_univ_three, Matrix.diagonal_mul, Matrix.of_apply, f00, f11, f22,
    hF 0 1 d10, hF 0 2 d20, hF 1 2 d21, hF 1 0 d01, hF 2 0 d02, hF 2 1 d12, i10, i20, i21,
    s10, s20, s21, z0, z1, z2, w01, w02, w12]
  simp only [hd0, hd1', hd2, ← hg, ← ha]
  clear_value σ g a
  linear_combination
    ((s 0 0 ^ 2 - s 0 2 ^ 2)⁻¹ * (a 0 2 * s 0 2 * g 2 0
        + a 2 0 * (g 2 0 * s 0 0 + g 0 2 * s 0 2 - σ * g 2 0 * s 0 2))
      + (s 0 1 ^ 2 - s 0 2 ^ 2)⁻¹ * (a 1 2 * s 0 2 * g 2 1
        + a 2 1 * (g 2 1 * s 0 1 + g 1 2 * s 0 2 - σ * g 2 1 * s 0 2))) * hσ

/-- Rotation about the third axis, and the derivative of the curve. -/
noncomputable def zrot (t : ℝ) : M3 :=
  !![Real.cos t, -Real.sin t, 0; Real.sin t, Real.cos t, 0; 0, 0, 1]

theorem zrot_orth (t : ℝ) : (zrot t)ᵀ * zrot t = 1 := by
  have h := Real.sin_sq_add_cos_sq t
  ext i j
  fin_cases i <;> fin_cases j <;>
    simp [zrot, Matrix.mul_apply, Fin.sum_univ_three] <;> nlinarith

theorem zrot_det (t : ℝ) : (zrot t).det = 1 := by
  have h := Real.sin_sq_add_cos_sq t
  simp [zrot, Matrix.det_fin_three]; nlinarith

theorem zrot_deriv : MatDeriv zrot (SO3.hat ![0, 0, 1]) := by
  have hs := Real.hasDerivAt_sin 0
  have hc := Real.hasDerivAt_cos 0
  rw [Real.cos_zero] at hs
  rw [Real.sin_zero, neg_zero] at hc
  have h0 := hasDerivAt_const (0 : ℝ) (0 : ℝ)
  have h1 := hasDerivAt_const (0 : ℝ) (1 : ℝ)
  intro i j
  fin_cases i <;> fin_cases j <;> simp [zrot, SO3.hat]
  · exact hc
  · exact hs.neg
  · exact h0
  · exact hs
  · exact hc
  · exact h0
  · exact h0
  · exact h0
  · exact h1

/-- The backward pass of `normalize` is not the gradient at repeated singular values: at every
rotation matrix, whichever singular value decomposition is used, it returns zero for every incoming
gradient, although `normalize` is the identity on rotations. -/
theorem so3_normalize_backward_wrong :
    (∀ {R u v : M3} {s : V3} (G : M3), Rᵀ * R = 1 → IsSvd R u s v →
      SO3.normalizeBackward u s v G = 0) ∧
    (∃ (A u v : ℝ → M3) (s : ℝ → V3) (A' G : M3), (∀ t, IsSvd (A t) (u t) (s t) (v t)) ∧
      (∀ t, SO3.normalizeOf (u t) (v t) = A t) ∧ MatDeriv A A' ∧
      HasDerivAt (fun t => ip G (SO3.normalizeOf (u t) (v t))) 2 0 ∧
      ip (SO3.normalizeBackward (u 0) (s 0) (v 0) G) A' = 0) := by
  have h1 : ∀ {R u v : M3} {s : V3} (G : M3), Rᵀ * R = 1 → IsSvd R u s v →
      SO3.normalizeBackward u s v G = 0 := by
    intro R u v s G hR h
    have hvv := SO3.orth_left h.vv
    have e : Matrix.diagonal s * Matrix.diagonal s = (1 : M3) := by
      calc Matrix.diagonal s * Matrix.diagonal s
          = (vᵀ * v) * Matrix.diagonal s * (uᵀ * u) * Matrix.diagonal s * (vᵀ * v) := by
            rw [h.uu, h.vv]; simp
        _ = vᵀ * ((u * Matrix.diagonal s * vᵀ)ᵀ * (u * Matrix.diagonal s * vᵀ)) * v := by
            simp only [Matrix.transpose_mul, Matrix.transpose_transpose,
              Matrix.diagonal_transpose, Matrix.mul_assoc]
        _ = 1 := by rw [← h.eq, hR, Matrix.mul_one, h.vv]
    have hs : ∀ i, s i ^ 2 = 1 := by
      intro i
      have := congrFun (congrFun e i) i
      rw [Matrix.diagonal_mul_diagonal, Matrix.diagonal_apply_eq, Matrix.one_apply_eq] at this
      rw [sq]; exact this
    have hF : ∀ i j, SO3.normF s i j = 0 := by
      intro i j; simp [SO3.normF, hs]
    have hz : (Matrix.of fun (_ _ : Fin 3) => (0 : ℝ)) = (0 : M3) := rfl
    simp [SO3.normalizeBackward, hF, hz]
  refine ⟨h1, zrot, zrot, fun _ => 1, fun _ => ![1, 1, 1], SO3.hat ![0, 0, 1],
    SO3.hat ![0, 0, 1], ?_, ?_, zrot_deriv, ?_, ?_⟩
  · have hd : (Matrix.diagonal ![1, 1, 1] : M3) = 1 := by
      rw [← Matrix.diagonal_one]; congr 1; ext i; fin_cases i <;> rfl
    exact fun t => ⟨zrot_orth t, by simp, by rw [hd]; simp, by simp, by simp, by simp⟩
  · intro t
    rw [SO3.normalizeOf_pos (by rw [zrot_det]; simp)]; simp
  · have e : (fun t => ip (SO3.hat ![0, 0, 1]) (SO3.normalizeOf (zrot t) 1))
        = fun t => ip (SO3.hat ![0, 0, 1]) (zrot t) := by
      funext t
      rw [SO3.normalizeOf_pos (by rw [zrot_det]; simp)]; simp
    rw [e]
    refine (ip_deriv zrot_deriv _).congr_deriv ?_
    rw [ip_hat_hat]; simp [vip, Fin.sum_univ_three]
  · rw [h1 (R := zrot 0) (s := ![1, 1, 1]) _ (zrot_orth 0)]
    · simp [ip]
    · have hd : (Matrix.diagonal ![1, 1, 1] : M3) = 1 := by
        rw [← Matrix.diagonal_one]; congr 1; ext i; fin_cases i <;> rfl
      exact ⟨zrot_orth 0, by simp, by rw [hd]; simp, by simp, by simp, by simp⟩

/-- Non-vacuity: a curve with singular values 3, 2, 1 whose normalisation turns about the third
axis, so `so3_normalize_backward_partial` gives the derivative 2 for this incoming gradient. -/
example : ip (SO3.normalizeBackward (zrot 0) ![3, 2, 1] 1 (SO3.hat ![0, 0, 1]))
    (SO3.hat ![0, 0, 1] * Matrix.diagonal ![3, 2, 1]) = 2 := by
  have hn : (fun t => SO3.normalizeOf (zrot t) 1) = zrot := by
    funext t
    rw [SO3.normalizeOf_pos (by rw [zrot_det]; simp)]; simp
  have hc : MatDeriv (fun _ => (Matrix.diagonal ![3, 2, 1] : M3)) 0 :=
    fun i j => hasDerivAt_const _ _
  have hA : MatDeriv (fun t => zrot t * Matrix.diagonal ![3, 2, 1])
      (SO3.hat ![0, 0, 1] * Matrix.diagonal ![3, 2, 1]) := by
    have := zrot_deriv.mul hc
    simpa using this
  have hsvd : ∀ t, IsSvd (zrot t * Matrix.diagonal ![3, 2, 1]) (zrot t) ![3, 2, 1] 1 := fun t =>
    ⟨zrot_orth t, by simp, by simp, by norm_num,
      show (1 : ℝ) ≤ 2 by norm_num, show (0 : ℝ) ≤ 1 by norm_num⟩
  have h := so3_normalize_backward_partial (u := zrot) (v := fun _ => 1) (s := fun _ => ![3, 2, 1])
    hsvd hA (R' := SO3.hat ![0, 0, 1]) (by rw [hn]; exact zrot_deriv) (by simp) (by simp)
    (SO3.hat ![0, 0, 1])
  have h' : HasDerivAt (fun t => ip (SO3.hat ![0, 0, 1]) (SO3.normalizeOf (zrot t) 1)) 2 0 := by
    have e : (fun t => ip (SO3.hat ![0, 0, 1]) (SO3.normalizeOf (zrot t) 1))
        = fun t => ip (SO3.hat ![0, 0, 1]) (zrot t) := by
      funext t; rw [show SO3.normalizeOf (zrot t) 1 = zrot t from congrFun hn t]
    rw [e]
    refine (ip_deriv zrot_deriv _).congr_deriv ?_
    rw [ip_hat_hat]; simp [vip, Fin.sum_univ_three]
  exact h.unique h'

/-- Non-vacuity of the logarithm theorems: the curve of rotations about the third axis. -/
example (g : V3) : HasDerivAt (fun t => vip g (SO3.log (1 / 200) (1 / 10000000) (zrot t)))
    (ip (SO3.logBackward (1 / 200) (1 / 100) (1 / 10000000) (zrot 0) g) (SO3.hat ![0, 0, 1])) 0 := by
  refine so3_log_backward_partial (by norm_num) (by norm_num) (by norm_num) (by norm_num)
    (fun t => ⟨zrot_orth t, zrot_det t⟩) zrot_deriv (Or.inr ?_) g
  ext i j; fin_cases i <;> fin_cases j <;> simp [zrot]

/-- Non-vacuity of the exponential theorems. -/
example (G : M3) : ∃ d, HasDerivAt (fun t => ip G (SO3.exp (1 / 200) ![t, 0, 0])) d 0 := by
  have hv : VecDeriv (fun t : ℝ => (![t, 0, 0] : V3)) ![1, 0, 0] := by
    intro i
    fin_cases i
    · exact hasDerivAt_id 0
    · exact hasDerivAt_const _ _
    · exact hasDerivAt_const _ _
  refine ⟨_, so3_exp_backward (by norm_num) hv ?_ G⟩
  simp [norm3, dot3]

end Verif.Geometry
