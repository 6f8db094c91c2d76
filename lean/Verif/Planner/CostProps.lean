import Verif.Planner.Values
import Verif.Embodied.GpProps
import Verif.Embodied.CollisionProps

/-!
# The motion planner's cost: properties (C103)
-/

namespace Verif.Planner
open Verif.Geometry Verif.Embodied Matrix

/-! ### Specification -/

/-- The squared Euclidean norm. -/
def sqNorm {n : ℕ} (v : Fin n → ℝ) : ℝ := ∑ i, v i ^ 2

/-- The deviation from constant velocity between the time points `k` and `k + 1`. -/
def deviation {n : ℕ} {G : Type} (g : Geo n G) (x : Vals n G) (k : ℕ) : Fin (n + n) → ℝ :=
  Fin.append (g.ops.local (x.pose k) (x.pose (k + 1)) - x.dt • x.vel k) (x.vel (k + 1) - x.vel k)

/-- The costs of the time step from `k` to `k + 1`, when the signed distance at its end is `d`. -/
noncomputable def stepSpec {n : ℕ} [NeZero n] {G : Type} (g : Geo n G) (x : Vals n G) (single nh pv : Bool) (k : ℕ) (d : ℝ) : ℝ :=
  (x.scale (collisionVar single (k + 1)) * max (x.eps - d) 0) ^ 2 +
  deviation g x k ⬝ᵥ ((gpCovariance x.dt x.qcInv⁻¹)⁻¹ *ᵥ deviation g x k) +
  (if nh then x.scale .nhScale ^ 2 * ((g.nh (x.pose (k + 1)) (x.vel (k + 1))).map (· ^ 2)).sum else 0) +
  (if pv then x.scale .pvScale ^ 2 * max (1 - x.vel k 0) 0 ^ 2 else 0)

/-- The costs of the ends. -/
noncomputable def endSpec {n : ℕ} {G : Type} (g : Geo n G) (x : Vals n G) (N : ℕ) : ℝ :=
  x.scale .boundaryW ^ 2 * (sqNorm (g.ops.local x.start (x.pose 0)) + sqNorm (x.vel 0) +
    (((g.xy (x.pose N)).x - x.goal.x) ^ 2 + ((g.xy (x.pose N)).y - x.goal.y) ^ 2) + sqNorm (x.vel N))

/-! ### Lemmas -/

section
variable {n : ℕ} {G : Type} {g : Geo n G} {x : Vals n G}

theorem mapM_residual {es : List Entry} (h : ∀ e ∈ es, (residual g x e).isSome) :
    es.mapM (residual g x) = some (es.map fun e => (residual g x e).getD []) := by
  induction es with
  | nil => rfl
  | cons e es ih =>
    obtain ⟨r, hr⟩ := Option.isSome_iff_exists.1 (h e (by simp))
    rw [List.mapM_cons, ih fun e' he => h e' (by simp [he]), hr]
    simp [hr]

/-- The squared norm of a residual. -/
noncomputable def sqR (g : Geo n G) (x : Vals n G) (e : Entry) : ℝ := (((residual g x e).getD []).map (· ^ 2)).sum

theorem metric_sum {es : List Entry} (h : ∀ e ∈ es, (residual g x e).isSome) :
    metric g x es = some ((es.map (sqR g x)).sum / 2) := by
  unfold metric
  rw [mapM_residual h, Option.map_some]
  congr 2
  clear h
  induction es with
  | nil => rfl
  | cons e es ih => simp only [List.map_cons, List.flatten_cons, List.map_append, List.sum_append, List.sum_cons, ih, sqR]

theorem sum_flatMap (f : ℕ → List Entry) (h : Entry → ℝ) (N : ℕ) :
    (((List.range N).flatMap f).map h).sum = ∑ k ∈ Finset.range N, ((f k).map h).sum := by
  induction N with
  | zero => rfl
  | succ N ih =>
    rw [List.range_succ, List.flatMap_append, List.map_append, List.sum_append, ih, Finset.sum_range_succ]
    simp

theorem sum_ofFn {m : ℕ} (f : Fin m → ℝ) : ((List.ofFn f).map (· ^ 2)).sum = ∑ i, f i ^ 2 := by
  rw [List.map_ofFn, List.sum_ofFn]
  rfl

theorem positiveVel_sum [NeZero n] (v : Fin n → ℝ) : ((positiveVelError v).map (· ^ 2)).sum = max (1 - v 0) 0 ^ 2 := by
  unfold positiveVelError
  rw [sum_ofFn, Finset.sum_eq_single (0 : Fin n)]
  · rw [if_pos (by simp)]
    split
    · rw [max_eq_left (by linarith)]; ring
    · rw [max_eq_right (by linarith)]
  · intro b _ hb
    rw [if_neg (by
      intro h
      exact hb (Fin.ext (by rw [h]; simp)))]
    ring
  · simp

theorem sum_scale (s : ℝ) (l : List ℝ) : ((l.map (s * ·)).map (· ^ 2)).sum = s ^ 2 * (l.map (· ^ 2)).sum := by
  induction l with
  | nil => simp
  | cons a l ih => simp only [List.map_cons, List.sum_cons, ih]; ring

/-- **The cost of a trajectory**: half the sum of the penalties of the four end constraints, and for every time step the squared
hinge of the distance to the obstacles, the squared Mahalanobis norm of the deviation from constant velocity under the covariance of
white noise on acceleration, and the optional costs. -/
theorem planner_cost [NeZero n] (N : ℕ) (single nh pv : Bool) (d : ℕ → ℝ) (hdt : 0 < x.dt) (hQ : x.qcInv.PosDef)
    (hd : ∀ k < N, ∃ j, x.sdf.signedDistance (g.xy (x.pose (k + 1))) = some (d k, j)) :
    metric g x (entries single nh pv N) =
      some ((endSpec g x N + ∑ k ∈ Finset.range N, stepSpec g x single nh pv k (d k)) / 2) := by
  obtain ⟨W, hW, hW2, -⟩ := gp_weighted_cost hdt hQ
  have hcoll : ∀ k < N, residual g x ⟨.collision (k + 1), [.pose (k + 1)],
      [.sdfOrigin, .sdfData, .cellSize, .costEps, collisionVar single (k + 1)]⟩ =
      some [x.scale (collisionVar single (k + 1)) * max (x.eps - d k) 0] := by
    intro k hk
    obtain ⟨j, hj⟩ := hd k hk
    simp only [residual, collError, hj]
    rfl
  have hgp : ∀ k, residual g x ⟨.gp (k + 1), [.pose k, .vel k, .pose (k + 1), .vel (k + 1)], [.dt, .qcInv, .dt]⟩ =
      some (List.ofFn (gpWeightError W (deviation g x k))) := by
    intro k
    simp only [residual, hW]
    rfl
  rw [metric_sum, entries, List.map_append, List.sum_append, sum_flatMap]
  · congr 3
    · simp only [List.map_cons, List.map_nil, List.sum_cons, List.sum_nil, sqR, residual, Option.getD_some, differenceError,
        sum_ofFn, endSpec, sqNorm]
      simp only [sub_zero, mul_pow, ← Finset.mul_sum]
      ring
    · refine Finset.sum_congr rfl fun k hk => ?_
      rw [Finset.mem_range] at hk
      rw [List.map_append, List.map_append, List.sum_append, List.sum_append]
      unfold stepSpec
      congr 2
      · simp only [List.map_cons, List.map_nil, List.sum_cons, List.sum_nil, sqR, hcoll k hk, hgp k, Option.getD_some, sum_ofFn]
        rw [← hW2]
        simp only [dotProduct, add_zero]
        congr 1
        exact Finset.sum_congr rfl fun i _ => by ring
      · cases nh with
        | false => simp
        | true =>
          rw [if_pos rfl, if_pos rfl]
          simp only [List.map_cons, List.map_nil, List.sum_cons, List.sum_nil, sqR, residual, Option.getD_some, add_zero]
          exact sum_scale _ _
      · cases pv with
        | false => simp
        | true =>
          rw [if_pos rfl, if_pos rfl]
          simp only [List.map_cons, List.map_nil, List.sum_cons, List.sum_nil, sqR, residual, Option.getD_some, add_zero]
          rw [sum_scale, positiveVel_sum]
  · intro e he
    unfold entries at he
    rcases List.mem_append.1 he with he | he
    · simp only [List.mem_cons, List.not_mem_nil, or_false] at he
      rcases he with rfl | rfl | rfl | rfl <;> rfl
    · obtain ⟨k, hk, he⟩ := List.mem_flatMap.1 he
      rw [List.mem_range] at hk
      rcases List.mem_append.1 he with he | he
      · rcases List.mem_append.1 he with he | he
        · simp only [List.mem_cons, List.not_mem_nil, or_false] at he
          rcases he with rfl | rfl
          · rw [hcoll k hk]; rfl
          · rw [hgp k]; rfl
        · cases nh with
          | false => simp at he
          | true =>
            simp only [if_true, List.mem_cons, List.not_mem_nil, or_false] at he
            subst he; rfl
      · cases pv with
        | false => simp at he
        | true =>
          simp only [if_true, List.mem_cons, List.not_mem_nil, or_false] at he
          subst he; rfl

end

/-! ### When the cost is zero -/

theorem sqNorm_nonneg {n : ℕ} (v : Fin n → ℝ) : 0 ≤ sqNorm v := Finset.sum_nonneg fun _ _ => sq_nonneg _

theorem sqNorm_eq_zero {n : ℕ} {v : Fin n → ℝ} : sqNorm v = 0 ↔ v = 0 := by
  unfold sqNorm
  rw [Finset.sum_eq_zero_iff_of_nonneg fun i _ => sq_nonneg _]
  simp [funext_iff]

section
variable {n : ℕ} [NeZero n] {G : Type} {g : Geo n G} {x : Vals n G}

omit [NeZero n] in
theorem covariance_inv_posDef (hdt : 0 < x.dt) (hQ : x.qcInv.PosDef) : ((gpCovariance x.dt x.qcInv⁻¹)⁻¹).PosDef := by
  have h1 : x.qcInv * x.qcInv⁻¹ = 1 := Matrix.mul_nonsing_inv _ ((Matrix.isUnit_iff_isUnit_det _).1 hQ.isUnit)
  rw [Matrix.inv_eq_left_inv (gp_info_inverse hdt h1)]
  exact gpInfo_posDef hdt hQ

theorem quad_zero {m : ℕ} {M : Matrix (Fin m) (Fin m) ℝ} (hM : M.PosDef) (v : Fin m → ℝ) :
    0 ≤ v ⬝ᵥ (M *ᵥ v) ∧ (v ⬝ᵥ (M *ᵥ v) = 0 ↔ v = 0) := by
  refine ⟨by simpa using hM.posSemidef.dotProduct_mulVec_nonneg v, fun h => ?_, fun h => by rw [h]; simp⟩
  by_contra hne
  have := hM.dotProduct_mulVec_pos hne
  simp at this
  exact this.ne' h

theorem stepSpec_nonneg (hdt : 0 < x.dt) (hQ : x.qcInv.PosDef) (single nh pv : Bool) (k : ℕ) (d : ℝ) :
    0 ≤ stepSpec g x single nh pv k d := by
  unfold stepSpec
  have h1 := (quad_zero (covariance_inv_posDef hdt hQ) (deviation g x k)).1
  have h2 : 0 ≤ ((g.nh (x.pose (k + 1)) (x.vel (k + 1))).map (· ^ 2)).sum := List.sum_nonneg fun y hy => by
    obtain ⟨z, -, rfl⟩ := List.mem_map.1 hy
    exact sq_nonneg z
  have h3 : 0 ≤ if nh then x.scale .nhScale ^ 2 * ((g.nh (x.pose (k + 1)) (x.vel (k + 1))).map (· ^ 2)).sum else 0 := by
    split
    · exact mul_nonneg (sq_nonneg _) h2
    · exact le_rfl
  have h4 : 0 ≤ if pv then x.scale .pvScale ^ 2 * max (1 - x.vel k 0) 0 ^ 2 else 0 := by
    split
    · positivity
    · exact le_rfl
  positivity

omit [NeZero n] in
theorem endSpec_nonneg (N : ℕ) : 0 ≤ endSpec g x N := by
  unfold endSpec
  have h1 := sqNorm_nonneg (g.ops.local x.start (x.pose 0))
  have h2 := sqNorm_nonneg (x.vel 0)
  have h3 := sqNorm_nonneg (x.vel N)
  positivity

/-- Zero cost, with weights that are not zero: the trajectory starts and ends where it should, at rest; no time step deviates from
constant velocity; every pose but the first is at least `cost_eps` away from the obstacles. -/
theorem zero_cost (N : ℕ) (single nh pv : Bool) (d : ℕ → ℝ) (hdt : 0 < x.dt) (hQ : x.qcInv.PosDef)
    (hd : ∀ k < N, ∃ j, x.sdf.signedDistance (g.xy (x.pose (k + 1))) = some (d k, j)) (hb : x.scale .boundaryW ≠ 0)
    (hc : ∀ k < N, x.scale (collisionVar single (k + 1)) ≠ 0) (h0 : metric g x (entries single nh pv N) = some 0) :
    g.ops.local x.start (x.pose 0) = 0 ∧ x.vel 0 = 0 ∧ g.xy (x.pose N) = x.goal ∧ x.vel N = 0 ∧
    (∀ k < N, x.eps ≤ d k ∧ deviation g x k = 0) ∧ (∀ k < N, pv = true → x.scale .pvScale ≠ 0 → 1 ≤ x.vel k 0) := by
  rw [planner_cost N single nh pv d hdt hQ hd, Option.some.injEq, div_eq_zero_iff] at h0
  have hs : ∀ k ∈ Finset.range N, 0 ≤ stepSpec g x single nh pv k (d k) := fun k _ => stepSpec_nonneg hdt hQ ..
  have he : endSpec g x N = 0 ∧ ∑ k ∈ Finset.range N, stepSpec g x single nh pv k (d k) = 0 := by
    have h1 := endSpec_nonneg (g := g) (x := x) N
    have h2 := Finset.sum_nonneg hs
    rcases h0 with h0 | h0
    · constructor <;> linarith
    · norm_num at h0
  obtain ⟨he1, he2⟩ := he
  rw [Finset.sum_eq_zero_iff_of_nonneg hs] at he2
  unfold endSpec at he1
  have hb2 : x.scale .boundaryW ^ 2 ≠ 0 := pow_ne_zero 2 hb
  have h1 := sqNorm_nonneg (g.ops.local x.start (x.pose 0))
  have h2 := sqNorm_nonneg (x.vel 0)
  have h3 := sqNorm_nonneg (x.vel N)
  have h4 := sq_nonneg ((g.xy (x.pose N)).x - x.goal.x)
  have h5 := sq_nonneg ((g.xy (x.pose N)).y - x.goal.y)
  have h6 := (mul_eq_zero.1 he1).resolve_left hb2
  have step : ∀ k < N, (x.scale (collisionVar single (k + 1)) * max (x.eps - d k) 0) ^ 2 = 0 ∧
      deviation g x k ⬝ᵥ ((gpCovariance x.dt x.qcInv⁻¹)⁻¹ *ᵥ deviation g x k) = 0 ∧
      (pv = true → x.scale .pvScale ^ 2 * max (1 - x.vel k 0) 0 ^ 2 = 0) := by
    intro k hk
    have h7 := he2 k (Finset.mem_range.2 hk)
    unfold stepSpec at h7
    have h8 := (quad_zero (covariance_inv_posDef hdt hQ) (deviation g x k)).1
    have h9 : 0 ≤ if nh then x.scale .nhScale ^ 2 * ((g.nh (x.pose (k + 1)) (x.vel (k + 1))).map (· ^ 2)).sum else 0 := by
      split
      · exact mul_nonneg (sq_nonneg _) (List.sum_nonneg fun y hy => by
          obtain ⟨z, -, rfl⟩ := List.mem_map.1 hy
          exact sq_nonneg z)
      · exact le_rfl
    have h10 : 0 ≤ if pv then x.scale .pvScale ^ 2 * max (1 - x.vel k 0) 0 ^ 2 else 0 := by
      split
      · positivity
      · exact le_rfl
    have h11 := sq_nonneg (x.scale (collisionVar single (k + 1)) * max (x.eps - d k) 0)
    refine ⟨by linarith, by linarith, fun hp => ?_⟩
    rw [if_pos hp] at h7 h10
    linarith
  refine ⟨sqNorm_eq_zero.1 (by linarith), sqNorm_eq_zero.1 (by linarith), ?_, sqNorm_eq_zero.1 (by linarith),
    fun k hk => ⟨?_, ?_⟩, fun k hk hp hw => ?_⟩
  · have h7 : ((g.xy (x.pose N)).x - x.goal.x) ^ 2 = 0 := by linarith
    have h8 : ((g.xy (x.pose N)).y - x.goal.y) ^ 2 = 0 := by linarith
    exact P2.ext (sub_eq_zero.1 (pow_eq_zero_iff (two_ne_zero) |>.1 h7)) (sub_eq_zero.1 (pow_eq_zero_iff (two_ne_zero) |>.1 h8))
  · have h7 := (mul_eq_zero.1 (pow_eq_zero_iff (two_ne_zero) |>.1 (step k hk).1)).resolve_left (hc k hk)
    have := le_max_left (x.eps - d k) 0
    linarith
  · exact (quad_zero (covariance_inv_posDef hdt hQ) _).2.1 (step k hk).2.1
  · have h7 := (mul_eq_zero.1 ((step k hk).2.2 hp)).resolve_left (pow_ne_zero 2 hw)
    have h8 := pow_eq_zero_iff (two_ne_zero) |>.1 h7
    have := le_max_left (1 - x.vel k 0) 0
    linarith

/-- **A defect.** `positive_vel_w` asks for a velocity of at least 1 (the threshold of the hinge cost), also at the start, where the
velocity must be zero: with this cost no trajectory has zero cost, however slow or far it is. -/
theorem positive_vel_conflict (N : ℕ) (hN : 1 ≤ N) (single nh : Bool) (d : ℕ → ℝ) (hdt : 0 < x.dt) (hQ : x.qcInv.PosDef)
    (hd : ∀ k < N, ∃ j, x.sdf.signedDistance (g.xy (x.pose (k + 1))) = some (d k, j)) (hb : x.scale .boundaryW ≠ 0)
    (hp : x.scale .pvScale ≠ 0) : metric g x (entries single nh true N) ≠ some 0 := by
  intro h0
  rw [planner_cost N single nh true d hdt hQ hd, Option.some.injEq, div_eq_zero_iff] at h0
  have hs : ∀ k ∈ Finset.range N, 0 ≤ stepSpec g x single nh true k (d k) := fun k _ => stepSpec_nonneg hdt hQ ..
  have h1 := endSpec_nonneg (g := g) (x := x) N
  have h2 := Finset.sum_nonneg hs
  have he : endSpec g x N = 0 ∧ ∑ k ∈ Finset.range N, stepSpec g x single nh true k (d k) = 0 := by
    rcases h0 with h0 | h0
    · constructor <;> linarith
    · norm_num at h0
  obtain ⟨he1, he2⟩ := he
  rw [Finset.sum_eq_zero_iff_of_nonneg hs] at he2
  have h3 := he2 0 (Finset.mem_range.2 (by omega))
  unfold endSpec at he1
  have h4 := sqNorm_nonneg (g.ops.local x.start (x.pose 0))
  have h5 := sqNorm_nonneg (x.vel 0)
  have h6 := sqNorm_nonneg (x.vel N)
  have h7 := sq_nonneg ((g.xy (x.pose N)).x - x.goal.x)
  have h8 := sq_nonneg ((g.xy (x.pose N)).y - x.goal.y)
  have h9 := (mul_eq_zero.1 he1).resolve_left (pow_ne_zero 2 hb)
  have hv : x.vel 0 = 0 := sqNorm_eq_zero.1 (by linarith)
  unfold stepSpec at h3
  rw [hv, if_pos rfl] at h3
  have h10 := (quad_zero (covariance_inv_posDef hdt hQ) (deviation g x 0)).1
  have h11 : 0 ≤ if nh then x.scale .nhScale ^ 2 * ((g.nh (x.pose (0 + 1)) (x.vel (0 + 1))).map (· ^ 2)).sum else 0 := by
    split
    · exact mul_nonneg (sq_nonneg _) (List.sum_nonneg fun y hy => by
        obtain ⟨z, -, rfl⟩ := List.mem_map.1 hy
        exact sq_nonneg z)
    · exact le_rfl
  have h12 := sq_nonneg (x.scale (collisionVar single (0 + 1)) * max (x.eps - d 0) 0)
  have h13 : 0 < x.scale .pvScale ^ 2 := by positivity
  simp at h3
  simp at h11 h12
  linarith

end

theorem point2_local (p q : Fin 2 → ℝ) : point2.ops.local p q = q - p := by
  funext i
  simp only [point2, Ops.local, Ops.between, Vec.ops, Pi.add_apply, Pi.neg_apply, Pi.sub_apply]
  ring

theorem point2_deviation (x : Vals 2 (Fin 2 → ℝ)) (k : ℕ) : deviation point2 x k =
    Fin.append (x.pose (k + 1) - x.pose k - x.dt • x.vel k) (x.vel (k + 1) - x.vel k) := by
  unfold deviation; rw [point2_local]

theorem append_eq_zero {a b : ℕ} {u : Fin a → ℝ} {v : Fin b → ℝ} : Fin.append u v = 0 ↔ u = 0 ∧ v = 0 := by
  constructor
  · intro h
    exact ⟨funext fun i => by simpa using congrFun h (Fin.castAdd b i), funext fun i => by simpa using congrFun h (Fin.natAdd a i)⟩
  · rintro ⟨rfl, rfl⟩
    ext i
    refine Fin.addCases (fun i => ?_) (fun i => ?_) i <;> simp

/-- For `Point2` poses: the cost is zero only if start and goal are the same point and the robot never moves. (So for any other
problem the minimum is a compromise: the end constraints are not hard constraints.) -/
theorem point2_zero_cost (x : Vals 2 (Fin 2 → ℝ)) (N : ℕ) (single : Bool) (d : ℕ → ℝ) (hdt : 0 < x.dt) (hQ : x.qcInv.PosDef)
    (hd : ∀ k < N, ∃ j, x.sdf.signedDistance ⟨x.pose (k + 1) 0, x.pose (k + 1) 1⟩ = some (d k, j))
    (hb : x.scale .boundaryW ≠ 0) (hc : ∀ k < N, x.scale (collisionVar single (k + 1)) ≠ 0) :
    metric point2 x (entries single false false N) = some 0 ↔
      (x.start 0 = x.goal.x ∧ x.start 1 = x.goal.y) ∧ (∀ k ≤ N, x.pose k = x.start ∧ x.vel k = 0) ∧ ∀ k < N, x.eps ≤ d k := by
  constructor
  · intro h0
    obtain ⟨h1, h2, h3, -, h5, -⟩ := zero_cost (g := point2) N single false false d hdt hQ hd hb hc h0
    have h6 : ∀ k ≤ N, x.pose k = x.start ∧ x.vel k = 0 := by
      intro k
      induction k with
      | zero =>
        intro _
        refine ⟨?_, h2⟩
        rw [point2_local] at h1
        exact sub_eq_zero.1 h1
      | succ k ih =>
        intro hk
        obtain ⟨i1, i2⟩ := ih (by omega)
        have h7 := (h5 k (by omega)).2
        rw [point2_deviation, append_eq_zero, i1, i2, smul_zero, sub_zero, sub_zero] at h7
        exact ⟨sub_eq_zero.1 h7.1, h7.2⟩
    refine ⟨?_, h6, fun k hk => (h5 k hk).1⟩
    rw [← (h6 N le_rfl).1, ← h3]
    exact ⟨rfl, rfl⟩
  · rintro ⟨⟨h1, h2⟩, h3, h4⟩
    rw [planner_cost (g := point2) N single false false d hdt hQ hd]
    have e1 : endSpec point2 x N = 0 := by
      unfold endSpec
      rw [(h3 0 (by omega)).1, (h3 0 (by omega)).2, (h3 N le_rfl).1, (h3 N le_rfl).2]
      rw [point2_local]
      simp [point2, sqNorm, h1, h2]
    have e2 : ∀ k ∈ Finset.range N, stepSpec point2 x single false false k (d k) = 0 := by
      intro k hk
      rw [Finset.mem_range] at hk
      have h5 : deviation point2 x k = 0 := by
        rw [point2_deviation, append_eq_zero, (h3 k (by omega)).1, (h3 k (by omega)).2, (h3 (k + 1) (by omega)).1,
          (h3 (k + 1) (by omega)).2]
        simp
      unfold stepSpec
      rw [h5, max_eq_right (by linarith [h4 k hk])]
      simp
    rw [e1, Finset.sum_eq_zero e2]
    simp

end Verif.Planner
