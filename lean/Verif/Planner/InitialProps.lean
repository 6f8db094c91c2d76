import Verif.Planner.TrajectoryProps
import Verif.Linear.Lemmas

/-!
# `InitialTrajectoryModel` (models.py): properties (C105), and examples for the planner
-/

namespace Verif.Planner
open Verif.Geometry Verif.Embodied Verif.Objective Matrix

/-! ### The mean trajectory -/

theorem meanLine_eq (n : ℕ) (start goal : P2) (t : ℕ) :
    meanLine n start goal t = ⟨start.x + t * ((goal.x - start.x) / n), start.y + t * ((goal.y - start.y) / n)⟩ := by
  induction t with
  | zero => ext <;> simp [meanLine]
  | succ t ih =>
    rw [meanLine, ih]
    ext <;> push_cast <;> ring

theorem curT_eq (n : ℕ) (d : ℝ) (t : ℕ) : curT n d t = -(d / 2) + t * (d / n) := by
  induction t with
  | zero => simp [curT]
  | succ t ih => rw [curT, ih]; push_cast; ring

theorem quarter_turn (p : P2) : SO2.rotate (SO2.exp (1 * Real.pi / 2)) p = ⟨-p.y, p.x⟩ := by
  ext <;> simp [SO2.rotate, SO2.exp, SO2.rotateFromCosSin]

/-- **The mean trajectory** is the straight line from start to goal, bent sideways by a parabola with zeros at both ends: after the
fraction `t/n` of the way the offset along the left normal is `-8 b (t/n)(1 - t/n)`. -/
theorem mean_pos {n : ℕ} (hn : 1 ≤ n) (start goal : P2) (hne : start ≠ goal) (b : ℝ) (t : ℕ) :
    let dx := goal.x - start.x
    let dy := goal.y - start.y
    let d := Real.sqrt (dx ^ 2 + dy ^ 2)
    let u := (t : ℝ) / n
    meanPos n start goal b t =
      ⟨start.x + u * dx + (-dy / d) * (-8 * b * (u * (1 - u))), start.y + u * dy + (dx / d) * (-8 * b * (u * (1 - u)))⟩ := by
  intro dx dy d u
  have hn0 : (n : ℝ) ≠ 0 := by
    have : (1 : ℝ) ≤ n := by exact_mod_cast hn
    linarith
  have hpos : 0 < dx ^ 2 + dy ^ 2 := by
    rcases ne_or_eq dx 0 with h | h
    · positivity
    · have hy : dy ≠ 0 := by
        intro h'
        exact hne (P2.ext (by simp only [dx] at h; linarith) (by simp only [dy] at h'; linarith))
      positivity
  have hd : 0 < d := Real.sqrt_pos.2 hpos
  by_cases ht : t = 0
  · subst ht
    unfold meanPos
    rw [if_pos rfl, meanLine]
    ext <;> simp [u]
  · unfold meanPos
    rw [if_neg ht]
    dsimp only
    rw [quarter_turn, meanLine_eq]
    have e1 : Real.sqrt ((-(goal.y - start.y)) ^ 2 + (goal.x - start.x) ^ 2) = d := by
      simp only [d, dx, dy]; congr 1; ring
    rw [e1]
    have e2 : 2 * b * ((curT n (Real.sqrt ((goal.x - start.x) ^ 2 + (goal.y - start.y) ^ 2)) t ^ 2 -
        (Real.sqrt ((goal.x - start.x) ^ 2 + (goal.y - start.y) ^ 2) / 2) ^ 2) /
        (Real.sqrt ((goal.x - start.x) ^ 2 + (goal.y - start.y) ^ 2) / 2) ^ 2) = -8 * b * (u * (1 - u)) := by
      change 2 * b * ((curT n d t ^ 2 - (d / 2) ^ 2) / (d / 2) ^ 2) = _
      rw [curT_eq]
      simp only [u]
      field_simp
      ring
    rw [e2]
    ext
    · simp only [u, dx, dy]; ring
    · simp only [u, dx, dy]; ring

/-- It starts at the start and ends at the goal, and never leaves the straight line by more than twice the bend. -/
theorem mean_ends {n : ℕ} (hn : 1 ≤ n) (start goal : P2) (hne : start ≠ goal) (b : ℝ) :
    meanPos n start goal b 0 = start ∧ meanPos n start goal b n = goal ∧
    ∀ t ≤ n, Real.sqrt (((meanPos n start goal b t).x - (meanLine n start goal t).x) ^ 2 +
      ((meanPos n start goal b t).y - (meanLine n start goal t).y) ^ 2) ≤ 2 * |b| := by
  have hn0 : (0 : ℝ) < n := by
    have : (1 : ℝ) ≤ n := by exact_mod_cast hn
    linarith
  refine ⟨by simp [meanPos, meanLine], ?_, fun t ht => ?_⟩
  · rw [mean_pos hn start goal hne]
    ext <;> simp [div_self hn0.ne']
  · rw [mean_pos hn start goal hne, meanLine_eq]
    dsimp only
    set dx := goal.x - start.x with hdx
    set dy := goal.y - start.y with hdy
    set d := Real.sqrt (dx ^ 2 + dy ^ 2) with hd
    set u := (t : ℝ) / n with hu
    have hpos : 0 < dx ^ 2 + dy ^ 2 := by
      rcases ne_or_eq dx 0 with h | h
      · positivity
      · have hy : dy ≠ 0 := by
          intro h'
          exact hne (P2.ext (by rw [hdx] at h; linarith) (by rw [hdy] at h'; linarith))
        positivity
    have hd0 : 0 < d := Real.sqrt_pos.2 hpos
    have hd2 : d ^ 2 = dx ^ 2 + dy ^ 2 := Real.sq_sqrt hpos.le
    have hu0 : 0 ≤ u := by positivity
    have hu1 : u ≤ 1 := by
      rw [hu, div_le_one hn0]; exact_mod_cast ht
    have e : (start.x + u * dx + -dy / d * (-8 * b * (u * (1 - u))) - (start.x + t * (dx / n))) ^ 2 +
        (start.y + u * dy + dx / d * (-8 * b * (u * (1 - u))) - (start.y + t * (dy / n))) ^ 2 = (8 * b * (u * (1 - u))) ^ 2 := by
      have h1 : start.x + u * dx + -dy / d * (-8 * b * (u * (1 - u))) - (start.x + t * (dx / n)) =
          dy / d * (8 * b * (u * (1 - u))) := by rw [hu]; ring
      have h2 : start.y + u * dy + dx / d * (-8 * b * (u * (1 - u))) - (start.y + t * (dy / n)) =
          -(dx / d) * (8 * b * (u * (1 - u))) := by rw [hu]; ring
      rw [h1, h2]
      have h3 : (dy / d) ^ 2 + (dx / d) ^ 2 = 1 := by
        field_simp
        linarith
      linear_combination (8 * b * (u * (1 - u))) ^ 2 * h3
    rw [e, Real.sqrt_sq_eq_abs, abs_mul, abs_mul, abs_of_nonneg (mul_nonneg hu0 (by linarith : (0:ℝ) ≤ 1 - u)),
      abs_of_nonneg (by norm_num : (0 : ℝ) ≤ 8)]
    have h4 : u * (1 - u) ≤ 1 / 4 := by nlinarith [sq_nonneg (u - 1 / 2)]
    nlinarith [abs_nonneg b]

/-- Without a sample, the values are the mean trajectory; the velocities are its backward differences, zero at the start. -/
theorem initial_mean (n : ℕ) (dt : ℝ) (hdt : dt ≠ 0) (start goal : P2) (b : ℝ) (t : ℕ) :
    initialPose n dt start goal b (fun _ => 0) t = meanPos n start goal b t ∧
    initialVel n dt start goal b (fun _ => 0) 0 = ⟨0, 0⟩ ∧
    (meanPos n start goal b (t + 1)).x =
      (meanPos n start goal b t).x + dt * (initialVel n dt start goal b (fun _ => 0) (t + 1)).x ∧
    (meanPos n start goal b (t + 1)).y =
      (meanPos n start goal b t).y + dt * (initialVel n dt start goal b (fun _ => 0) (t + 1)).y := by
  have e0 : 4 * t % 4 = 0 := by omega
  have e1 : (4 * t + 1) % 4 = 1 := by omega
  have d0 : 4 * t / 4 = t := by omega
  have d1 : (4 * t + 1) / 4 = t := by omega
  have e2 : (4 * (t + 1) + 2) % 4 = 2 := by omega
  have e3 : (4 * (t + 1) + 3) % 4 = 3 := by omega
  have d2 : (4 * (t + 1) + 2) / 4 = t + 1 := by omega
  have d3 : (4 * (t + 1) + 3) / 4 = t + 1 := by omega
  refine ⟨?_, ?_, ?_, ?_⟩
  · simp only [initialPose, meanEntry, e0, e1, d0, d1]
    simp
  · simp [initialVel, meanEntry, meanVel]
  · simp only [initialVel, meanEntry, e2, d2, meanVel]
    simp
    field_simp
    ring
  · simp only [initialVel, meanEntry, e3, d3, meanVel]
    simp
    field_simp
    ring

/-! ### The sample -/

/-- The time point whose variables the sample's rows `4 t, …, 4 t + 3` belong to. -/
def slot (n t : ℕ) : ℕ := if t = 0 then 0 else if t = 1 then n else t - 1

theorem pairs_get (m k : ℕ) (hk : k < m) :
    ((List.range m).flatMap fun k => [VName.pose (k + 1), .vel (k + 1)])[2 * k]? = some (.pose (k + 1)) ∧
    ((List.range m).flatMap fun k => [VName.pose (k + 1), .vel (k + 1)])[2 * k + 1]? = some (.vel (k + 1)) ∧
    ((List.range m).flatMap fun k => [VName.pose (k + 1), .vel (k + 1)]).length = 2 * m := by
  have hlen : ∀ m, ((List.range m).flatMap fun k => [VName.pose (k + 1), .vel (k + 1)]).length = 2 * m := by
    intro m
    simp [mul_comm]
  refine ⟨?_, ?_, hlen m⟩
  · induction m with
    | zero => omega
    | succ m ih =>
      rw [List.range_succ, List.flatMap_append]
      rcases Nat.lt_succ_iff_lt_or_eq.1 hk with h | h
      · rw [List.getElem?_append_left (by rw [hlen]; omega)]
        exact ih h
      · subst h
        rw [List.getElem?_append_right (by rw [hlen]), hlen]
        simp
  · induction m with
    | zero => omega
    | succ m ih =>
      rw [List.range_succ, List.flatMap_append]
      rcases Nat.lt_succ_iff_lt_or_eq.1 hk with h | h
      · rw [List.getElem?_append_left (by rw [hlen]; omega)]
        exact ih h
      · subst h
        rw [List.getElem?_append_right (by rw [hlen]; omega), hlen]
        simp

theorem varOrder_get {n t : ℕ} (hn : 1 ≤ n) (ht : t ≤ n) :
    (varOrder n)[2 * t]? = some (.pose (slot n t)) ∧ (varOrder n)[2 * t + 1]? = some (.vel (slot n t)) ∧
    (varOrder n).length = 2 * (n + 1) := by
  have hlen : (varOrder n).length = 2 * (n + 1) := by
    unfold varOrder
    simp
    omega
  refine ⟨?_, ?_, hlen⟩
  all_goals
    unfold varOrder slot
    rcases Nat.lt_or_ge t 2 with h | h
    · interval_cases t <;> simp
    · obtain ⟨p1, p2, -⟩ := pairs_get (n - 1) (t - 2) (by omega)
      rw [List.getElem?_append_right (by simp; omega), if_neg (by omega), if_neg (by omega)]
      first
        | rw [show 2 * t - [VName.pose 0, .vel 0, .pose n, .vel n].length = 2 * (t - 2) by simp; omega, p1]
          congr 2; omega
        | rw [show 2 * t + 1 - [VName.pose 0, .vel 0, .pose n, .vel n].length = 2 * (t - 2) + 1 by simp; omega, p2]
          congr 2; omega

/-- The rows of the sample: rows and columns of the linear system are in the order of the objective's variables, which puts the ends
first, so the rows `4 t, …, 4 t + 3`, which are added to the values of time point `t`, are those of time point `slot n t`. -/
theorem sample_rows {a : Args} {s : State} (hs : build a = .ok s) {t : ℕ} (ht : t ≤ a.numSteps.toNat) :
    let o := (Linear.mkOrdering s true).order
    (Linear.layout (fun _ => 2) o).starts[2 * t]? = some (4 * t) ∧
    (o.map Var.name)[2 * t]? = some (VName.pose (slot a.numSteps.toNat t)).code ∧
    (Linear.layout (fun _ => 2) o).starts[2 * t + 1]? = some (4 * t + 2) ∧
    (o.map Var.name)[2 * t + 1]? = some (VName.vel (slot a.numSteps.toNat t)).code := by
  intro o
  have hN := ((build_returns a).1 ⟨s, hs⟩).steps
  have hn : 1 ≤ a.numSteps.toNat := by omega
  obtain ⟨-, h1⟩ := build_vars hs
  obtain ⟨h2, h3, h4⟩ := varOrder_get hn ht
  have hlen : o.length = 2 * (a.numSteps.toNat + 1) := by
    have := congrArg List.length h1
    simpa [h4] using this
  have hst : ∀ j < o.length, (Linear.layout (fun _ => 2) o).starts[j]? = some (2 * j) := by
    intro j hj
    rw [Linear.layout, Linear.layoutLoop_starts, List.nil_append, Linear.cumStarts_get? _ _ _ (by simpa using hj)]
    congr 1
    rw [List.map_const', List.take_replicate, List.sum_replicate, min_eq_left (by omega)]
    simp [mul_comm]
  refine ⟨?_, ?_, ?_, ?_⟩
  · rw [hst _ (by omega)]; congr 1; omega
  · rw [h1, List.getElem?_map, h2]; rfl
  · rw [hst _ (by omega)]; congr 1; omega
  · rw [h1, List.getElem?_map, h3]; rfl

/-- **A defect.** With at least two time steps, every pose but the first gets the sample of another time point. -/
theorem sample_misplaced {n t : ℕ} (hn : 2 ≤ n) (h1 : 1 ≤ t) : slot n t ≠ t := by
  unfold slot
  split_ifs <;> omega

/-! ### Examples -/

theorem posDef_one2 : (1 : Matrix (Fin 2) (Fin 2) ℝ).PosDef := PosDef.one

/-- Arguments of a planner with three time steps. -/
noncomputable def exArgs : Args :=
  { mapSize := 10, epsDist := 1, totalTime := 3, collisionW := 5, qcSize := 2, qcInv := 1, numSteps := 3, dtype := 1, dflt := 0 }

theorem exArgs_legal : Legal exArgs := by
  refine ⟨rfl, by simp [exArgs], ?_, .inl rfl, fun h => absurd h (lt_irrefl _), fun h => absurd rfl h⟩
  rw [gp_accepts_iff]
  refine ⟨by simp [exArgs], ?_⟩
  intro q hq
  have hq' := List.mem_singleton.1 hq
  subst hq'
  show (lowerSymm (1 : Matrix (Fin 2) (Fin 2) ℝ)).PosDef
  have : lowerSymm (1 : Matrix (Fin 2) (Fin 2) ℝ) = 1 := by
    ext i j; fin_cases i <;> fin_cases j <;> simp [lowerSymm]
  rw [this]; exact PosDef.one

/-- `build_returns`, `build_costs`, `build_vars`, `sample_rows` apply. -/
example : ∃ s, build exArgs = .ok s ∧ (iter s).length = 10 ∧ s.optimVars.keys = [0, 1, 60, 61, 20, 21, 40, 41] := by
  classical
  obtain ⟨s, hs⟩ := (build_returns exArgs).2 exArgs_legal
  refine ⟨s, hs, ?_, ?_⟩
  · rw [← (build_costs hs).length_eq]
    have e1 : ¬ 0 < exArgs.nonholonomicW := lt_irrefl _
    have e2 : ¬ 0 < exArgs.positiveVelW := lt_irrefl _
    simp only [e1, e2, decide_false]
    rfl
  · rw [(build_vars hs).1]; rfl

/-- The two optional costs with a dtype that is not the default one: the constructor raises. -/
example : ¬ ∃ s, build { exArgs with poseType := .se2, nonholonomicW := 1 } = .ok s := by
  rw [build_returns]
  intro h
  have h1 : (0 : ℕ) = 1 := (h.nh (by norm_num)).2
  omega

/-- Values of a planner with two time steps in free space. -/
noncomputable def exVals (start goal : Fin 2 → ℝ) : Vals 2 (Fin 2 → ℝ) :=
  ⟨(straight 2 4 start goal).1, (straight 2 4 start goal).2, start, ⟨goal 0, goal 1⟩, Sdf.make 0 0 1 3 3 (fun _ _ => 7) 7, 1, 2, 1,
    fun _ => 100⟩

/-- The hypotheses of `planner_cost`, `point2_zero_cost` and `straight_line_cost` hold. -/
example : metric point2 (exVals ![0, 0] ![0, 0]) (entries true false false 2) = some 0 := by
  have hd : ∀ k < 2, ∃ d j, (exVals ![0, 0] ![0, 0]).sdf.signedDistance
      ⟨(exVals ![0, 0] ![0, 0]).pose (k + 1) 0, (exVals ![0, 0] ![0, 0]).pose (k + 1) 1⟩ = some (d, j) ∧ 1 ≤ d := by
    intro k _
    obtain ⟨j1, j2, h⟩ := sdf_at_node (ox := 0) (oy := 0) (h := 1) (R := 3) (C := 3) (data := fun _ _ => (7 : ℝ)) (bv := 7)
      one_pos (r := 0) (c := 0) (by norm_num) (by norm_num)
    refine ⟨7, (j1, j2), ?_, by norm_num⟩
    rw [← h]
    simp [exVals, straight]
  choose! d j hd1 hd2 using hd
  rw [point2_zero_cost (exVals ![0, 0] ![0, 0]) 2 true d (by simp [exVals]) (by simpa [exVals] using posDef_one2)
    (fun k hk => ⟨j k, hd1 k hk⟩) (by simp [exVals]) (fun k _ => by simp [exVals])]
  refine ⟨⟨by simp [exVals], by simp [exVals]⟩, fun k _ => ⟨?_, ?_⟩, fun k hk => by simpa [exVals] using hd2 k hk⟩
  · funext i; fin_cases i <;> simp [exVals, straight]
  · funext i; fin_cases i <;> simp [exVals, straight]

example : (straightSE2 2 4 ⟨0, 0, 0, 1⟩ ⟨2, 0⟩).1 1 = ⟨1, 0, 0, 1⟩ ∧ (straightSE2 2 4 ⟨0, 0, 0, 1⟩ ⟨2, 0⟩).2 1 = ![1 / 2, 0, 0] := by
  constructor
  · ext <;> simp [straightSE2]
  · simp [straightSE2]; norm_num

example : (⟨0, 0⟩ : P2) ≠ ⟨3, 4⟩ ∧ meanPos 2 ⟨0, 0⟩ ⟨3, 4⟩ 1 2 = ⟨3, 4⟩ := by
  have h : (⟨0, 0⟩ : P2) ≠ ⟨3, 4⟩ := by
    intro h; have := congrArg P2.x h; norm_num at this
  exact ⟨h, (mean_ends (by norm_num) _ _ h 1).2.1⟩

example : slot 3 1 = 3 ∧ slot 3 2 = 1 ∧ slot 3 3 = 2 := ⟨rfl, rfl, rfl⟩

end Verif.Planner
