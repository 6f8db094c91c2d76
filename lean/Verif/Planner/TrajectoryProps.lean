import Verif.Planner.CostProps
import Verif.Geometry.PlanarJac

/-!
# The motion planner's trajectories, copies and initial trajectories: properties (C104, C105)
-/

namespace Verif.Planner
open Verif.Geometry Verif.Embodied Verif.Objective Matrix

/-! ### Straight lines -/

/-- **The straight line of `Point2` poses**: it starts at the start, ends at the goal, and its motion costs vanish (with the planner's
time step). -/
theorem straight_line {n : ℕ} (hn : 1 ≤ n) {T : ℝ} (hT : T ≠ 0) (start goal : Fin 2 → ℝ) :
    (straight n T start goal).1 0 = start ∧ (straight n T start goal).1 n = goal ∧
    (∀ k, (straight n T start goal).2 k = (1 / T) • (goal - start)) ∧
    ∀ (x : Vals 2 (Fin 2 → ℝ)), x.pose = (straight n T start goal).1 → x.vel = (straight n T start goal).2 → x.dt = T / n →
      ∀ k, deviation point2 x k = 0 := by
  have hn0 : (n : ℝ) ≠ 0 := by
    have : (1 : ℝ) ≤ n := by exact_mod_cast hn
    linarith
  refine ⟨by simp [straight], ?_, fun _ => rfl, fun x hp hv ht k => ?_⟩
  · funext i
    simp [straight]
    field_simp
    ring
  · rw [point2_deviation, hp, hv, ht, append_eq_zero]
    refine ⟨funext fun i => ?_, by simp [straight]⟩
    simp [straight]
    field_simp
    ring

/-- The cost of a straight line that keeps clear of the obstacles: only the velocities at the ends are penalized. -/
theorem straight_line_cost (x : Vals 2 (Fin 2 → ℝ)) {n : ℕ} (hn : 1 ≤ n) {T : ℝ} (hT : 0 < T) (goal : Fin 2 → ℝ)
    (hg : x.goal = ⟨goal 0, goal 1⟩) (hp : x.pose = (straight n T x.start goal).1) (hv : x.vel = (straight n T x.start goal).2)
    (ht : x.dt = T / n) (hQ : x.qcInv.PosDef) (single : Bool) (d : ℕ → ℝ)
    (hd : ∀ k < n, ∃ j, x.sdf.signedDistance ⟨x.pose (k + 1) 0, x.pose (k + 1) 1⟩ = some (d k, j)) (hfree : ∀ k < n, x.eps ≤ d k) :
    metric point2 x (entries single false false n) =
      some (x.scale .boundaryW ^ 2 * (((goal 0 - x.start 0) / T) ^ 2 + ((goal 1 - x.start 1) / T) ^ 2)) := by
  obtain ⟨h1, h2, h3, h4⟩ := straight_line hn hT.ne' x.start goal
  have hdt : 0 < x.dt := by
    have : (1 : ℝ) ≤ n := by exact_mod_cast hn
    rw [ht]; positivity
  have h5 := h4 x hp hv ht
  rw [planner_cost (g := point2) n single false false d hdt hQ hd]
  have e2 : ∀ k ∈ Finset.range n, stepSpec point2 x single false false k (d k) = 0 := by
    intro k hk
    rw [Finset.mem_range] at hk
    unfold stepSpec
    rw [h5 k, max_eq_right (by linarith [hfree k hk])]
    simp
  rw [Finset.sum_eq_zero e2]
  congr 1
  have e3 : sqNorm ((1 / T) • (goal - x.start)) = ((goal 0 - x.start 0) / T) ^ 2 + ((goal 1 - x.start 1) / T) ^ 2 := by
    simp only [sqNorm, Fin.sum_univ_two, Pi.smul_apply, Pi.sub_apply, smul_eq_mul]
    ring
  unfold endSpec
  rw [hp, hv, h1, h2, h3, h3, e3, point2_local, hg]
  simp [point2, sqNorm]
  ring

/-- The straight line of `SE2` poses starts at the start and ends at the goal, with the start's heading throughout. -/
theorem straight_se2 {n : ℕ} (hn : 1 ≤ n) (T : ℝ) (start : SE2) (goal : P2) :
    (straightSE2 n T start goal).1 0 = start ∧ ((straightSE2 n T start goal).1 n).trans = goal ∧
    ∀ k, ((straightSE2 n T start goal).1 k).rot = start.rot := by
  have hn0 : (n : ℝ) ≠ 0 := by
    have : (1 : ℝ) ≤ n := by exact_mod_cast hn
    linarith
  refine ⟨by ext <;> simp [straightSE2], ?_, fun k => rfl⟩
  ext <;> simp [straightSE2, SE2.trans] <;> field_simp <;> ring

theorem log_no_rotation {eps : ℝ} (he : 0 < eps) (a : SE2) (hc : a.c = 1) (hs : a.s = 0) : SE2.log eps a = ![a.x, a.y, 0] := by
  have h0 : a.rot.log = 0 := by
    change Complex.arg ⟨a.c, a.s⟩ = 0
    rw [Complex.arg_eq_zero_iff, hc, hs]; simp
  have hH : SE2.logH eps a = 1 := by
    simp only [SE2.logH, h0, abs_zero, he, if_true, hc, hs]
    norm_num
  unfold SE2.log
  rw [h0, hH]
  simp

/-- **A defect.** The velocities of the straight line of `SE2` poses are in the frame of the map, but the motion model takes them in
the frame of the robot: the motion costs vanish only if the robot faces along the first axis, or start and goal coincide. -/
theorem straight_se2_deviation {eps deps : ℝ} (he : 0 < eps) {n : ℕ} (hn : 1 ≤ n) {T : ℝ} (hT : T ≠ 0) (start : SE2)
    (hs : start.c ^ 2 + start.s ^ 2 = 1) (goal : P2) (x : Vals 3 SE2) (hp : x.pose = (straightSE2 n T start goal).1)
    (hv : x.vel = (straightSE2 n T start goal).2) (ht : x.dt = T / n) (k : ℕ) :
    deviation (se2 eps deps) x k = 0 ↔ start.c = 1 ∨ start.trans = goal := by
  have hn0 : (n : ℝ) ≠ 0 := by
    have : (1 : ℝ) ≤ n := by exact_mod_cast hn
    linarith
  set ux := (goal.x - start.x) / n with hux
  set uy := (goal.y - start.y) / n with huy
  have hl : (se2 eps deps).ops.local (x.pose k) (x.pose (k + 1)) =
      ![start.c * ux + start.s * uy, -start.s * ux + start.c * uy, 0] := by
    have e : (se2 eps deps).ops.between (x.pose k) (x.pose (k + 1)) =
        ⟨start.c * ux + start.s * uy, -start.s * ux + start.c * uy, 1, 0⟩ := by
      rw [hp]
      have h1 : start.c * start.c + start.s * start.s = 1 := by rw [← hs]; ring
      ext
      · simp [se2, Ops.between, SE2.ops, SE2.compose, SE2.inverse, SE2.mk', SE2.rot, SE2.trans, SO2.inverse, SO2.rotate,
          SO2.rotateFromCosSin, straightSE2, ← hux, ← huy]
        ring
      · simp [se2, Ops.between, SE2.ops, SE2.compose, SE2.inverse, SE2.mk', SE2.rot, SE2.trans, SO2.inverse, SO2.rotate,
          SO2.rotateFromCosSin, straightSE2, ← hux, ← huy]
        ring
      · simp [se2, Ops.between, SE2.ops, SE2.compose, SE2.inverse, SE2.mk', SE2.rot, SO2.inverse, SO2.compose, straightSE2]
        linarith
      · simp [se2, Ops.between, SE2.ops, SE2.compose, SE2.inverse, SE2.mk', SE2.rot, SO2.inverse, SO2.compose, straightSE2]
        ring
    unfold Ops.local
    rw [e]
    exact log_no_rotation he _ rfl rfl
  have hvel : x.vel (k + 1) - x.vel k = 0 := by rw [hv]; simp [straightSE2]
  have hdv : x.dt • x.vel k = ![ux, uy, 0] := by
    rw [hv, ht, hux, huy]
    funext i
    fin_cases i <;> simp [straightSE2] <;> field_simp
  unfold deviation
  rw [append_eq_zero, hl, hvel, hdv]
  have key : (![start.c * ux + start.s * uy, -start.s * ux + start.c * uy, 0] - ![ux, uy, 0] : Fin 3 → ℝ) = 0 ↔
      (start.c - 1) * ux + start.s * uy = 0 ∧ -start.s * ux + (start.c - 1) * uy = 0 := by
    constructor
    · intro h
      have h0 := congrFun h 0
      have h1 := congrFun h 1
      simp at h0 h1
      exact ⟨by linarith, by linarith⟩
    · rintro ⟨h0, h1⟩
      funext i
      fin_cases i
      · simp; linarith
      · simp; linarith
      · simp
  rw [key]
  constructor
  · rintro ⟨⟨h0, h1⟩, -⟩
    by_cases hc : start.c = 1
    · exact .inl hc
    · right
      have h2 : (2 - 2 * start.c) ≠ 0 := by
        intro h; apply hc; linarith
      have h3 : (2 - 2 * start.c) * ux = 0 := by linear_combination (start.c - 1) * h0 - start.s * h1 - ux * hs
      have h4 : (2 - 2 * start.c) * uy = 0 := by linear_combination start.s * h0 + (start.c - 1) * h1 - uy * hs
      have h5 := (mul_eq_zero.1 h3).resolve_left h2
      have h6 := (mul_eq_zero.1 h4).resolve_left h2
      rw [hux, div_eq_zero_iff] at h5
      rw [huy, div_eq_zero_iff] at h6
      have h7 := h5.resolve_right hn0
      have h8 := h6.resolve_right hn0
      ext
      · simp [SE2.trans]; linarith
      · simp [SE2.trans]; linarith
  · rintro (h | h)
    · have h1 : start.s = 0 := by
        have : start.s ^ 2 = 0 := by rw [h] at hs; linarith
        exact pow_eq_zero_iff (two_ne_zero) |>.1 this
      rw [h, h1]; simp
    · have h1 : ux = 0 := by rw [hux, ← h]; simp [SE2.trans]
      have h2 : uy = 0 := by rw [huy, ← h]; simp [SE2.trans]
      rw [h1, h2]; simp

/-! ### Tensors of trajectories -/

/-- **`get_variable_values_from_trajectory`** accepts exactly tensors of the planner's shape, and the poses and velocities are the
columns of the tensor. -/
theorem values_of (p v len k m : ℕ) (t : ℕ → ℕ → ℝ) :
    ((valuesOf p v len k m t).isSome ↔ k = p + v ∧ m = len) ∧
    ∀ q w, valuesOf p v len k m t = some (q, w) → ∀ i r, q i r = t r i ∧ w i r = t (p + r) i := by
  unfold valuesOf
  constructor
  · split <;> simp_all
  · intro q w h
    split at h
    · simp only [Option.some.injEq, Prod.mk.injEq] at h
      obtain ⟨rfl, rfl⟩ := h
      exact fun i r => ⟨rfl, rfl⟩
    · cases h

/-- **`get_trajectory`** needs every pose; a missing velocity is zero; the other entries are stored as numbers of torch's default
dtype. -/
theorem trajectory_of (rnd : ℝ → ℝ) (p len : ℕ) (pose vel : ℕ → Option (ℕ → ℝ)) :
    ((trajectoryOf rnd p len pose vel).isSome ↔ ∀ i < len, (pose i).isSome) ∧
    ∀ t, trajectoryOf rnd p len pose vel = some t → ∀ i < len,
      (∀ q, pose i = some q → ∀ r < p, t r i = rnd (q r)) ∧ (∀ q, vel i = some q → ∀ r, t (p + r) i = rnd (q r)) ∧
      (vel i = none → ∀ r, t (p + r) i = 0) := by
  unfold trajectoryOf
  constructor
  · split <;> simp_all
  · intro t h i hi
    split at h
    · simp only [Option.some.injEq] at h
      subst h
      refine ⟨fun q hq r hr => ?_, fun q hq r => ?_, fun hq r => ?_⟩
      · simp [hr, hq]
      · simp [hq]
      · simp [hq]
    · cases h

/-- **The round trip**: the values of a trajectory, put back into a tensor, are the entries of the trajectory rounded to torch's
default dtype. -/
theorem trajectory_roundtrip (rnd : ℝ → ℝ) (p v len : ℕ) (t : ℕ → ℕ → ℝ) : ∃ q w t',
    valuesOf p v len (p + v) len t = some (q, w) ∧ trajectoryOf rnd p len (fun i => some (q i)) (fun i => some (w i)) = some t' ∧
    ∀ r < p + v, ∀ i < len, t' r i = rnd (t r i) := by
  obtain ⟨⟨q, w⟩, h1⟩ := Option.isSome_iff_exists.1 ((values_of p v len (p + v) len t).1.2 ⟨rfl, rfl⟩)
  obtain ⟨t', h2⟩ := Option.isSome_iff_exists.1 ((trajectory_of rnd p len (fun i => some (q i)) (fun i => some (w i))).1.2
    fun i _ => rfl)
  refine ⟨q, w, t', h1, h2, fun r hr i hi => ?_⟩
  have h3 := (values_of p v len (p + v) len t).2 q w h1
  obtain ⟨h4, h5, -⟩ := (trajectory_of rnd p len _ _).2 t' h2 i hi
  by_cases h : r < p
  · rw [h4 _ rfl r h, (h3 i r).1]
  · have := h5 _ rfl (r - p)
    rw [show p + (r - p) = r by omega] at this
    rw [this, (h3 i (r - p)).2, show p + (r - p) = r by omega]

/-- **A defect.** A planner of another dtype than torch's default one does not return its trajectory: an entry that the default dtype
cannot represent is changed. -/
theorem trajectory_rounded (rnd : ℝ → ℝ) (p v len : ℕ) (t : ℕ → ℕ → ℝ) {r i : ℕ} (hr : r < p + v) (hi : i < len)
    (hne : rnd (t r i) ≠ t r i) : ∃ q w t', valuesOf p v len (p + v) len t = some (q, w) ∧
    trajectoryOf rnd p len (fun i => some (q i)) (fun i => some (w i)) = some t' ∧ t' r i ≠ t r i := by
  obtain ⟨q, w, t', h1, h2, h3⟩ := trajectory_roundtrip rnd p v len t
  exact ⟨q, w, t', h1, h2, by rw [h3 r hr i hi]; exact hne⟩

/-! ### Total errors -/

theorem digit_ne {m : ℕ} (hm : m < 10) {c : Char} (hc : 58 ≤ c.toNat) : Char.ofNat (48 + m) ≠ c := by
  rintro rfl
  have : (Char.ofNat (48 + m)).toNat = 48 + m := by
    interval_cases m <;> rfl
  omega

theorem not_digits (i : ℕ) {c : Char} (hc : 58 ≤ c.toNat) : c ∉ digits i := by
  induction i using Nat.strong_induction_on with
  | _ i ih =>
    unfold digits
    split
    · rename_i h
      simp only [List.mem_singleton]
      exact (digit_ne h hc).symm
    · rename_i h
      simp only [List.mem_append, List.mem_singleton, not_or]
      exact ⟨ih _ (by omega), (digit_ne (by omega) hc).symm⟩

theorem infix_mem {sub s : List Char} (h : sub <:+: s) {c : Char} (hc : c ∈ sub) : c ∈ s := h.subset hc

theorem gp_infix (c : CName) : ['g', 'p'] <:+: c.chars ↔ ∃ i, c = .gp i := by
  constructor
  · intro h
    have hg := infix_mem h (c := 'g') (by simp)
    cases c with
    | gp i => exact ⟨i, rfl⟩
    | pose0 => simp [CName.chars] at hg
    | vel0 => simp [CName.chars] at hg
    | poseN => simp [CName.chars] at hg
    | velN => simp [CName.chars] at hg
    | collision i => have := not_digits i (c := 'g') (by decide); simp [CName.chars, this] at hg
    | nonholonomic i => have := not_digits i (c := 'g') (by decide); simp [CName.chars, this] at hg
    | positiveVel i => have := not_digits i (c := 'g') (by decide); simp [CName.chars, this] at hg
  · rintro ⟨i, rfl⟩
    exact ⟨[], '_' :: digits i, rfl⟩

theorem collision_infix (c : CName) : ['c', 'o', 'l', 'l', 'i', 's', 'i', 'o', 'n'] <:+: c.chars ↔ ∃ i, c = .collision i := by
  constructor
  · intro h
    have hc := infix_mem h (c := 'c') (by simp)
    have hs := infix_mem h (c := 's') (by simp)
    cases c with
    | collision i => exact ⟨i, rfl⟩
    | pose0 => simp [CName.chars] at hc
    | vel0 => simp [CName.chars] at hc
    | poseN => simp [CName.chars] at hc
    | velN => simp [CName.chars] at hc
    | gp i => have := not_digits i (c := 'c') (by decide); simp [CName.chars, this] at hc
    | nonholonomic i => have := not_digits i (c := 's') (by decide); simp [CName.chars, this] at hs
    | positiveVel i => have := not_digits i (c := 'c') (by decide); simp [CName.chars, this] at hc
  · rintro ⟨i, rfl⟩
    exact ⟨[], '_' :: digits i, rfl⟩

/-- **`get_total_squared_errors`** adds the mean squares of the unweighted errors of all the motion costs, and of all the collision
costs, and of nothing else. -/
theorem total_errors (single nh pv : Bool) (n : ℕ) (err : CName → List ℝ) :
    totalErrors ((entries single nh pv n).map fun e => (e.name.chars, err e.name)) =
      (∑ k ∈ Finset.range n, meanSquare (err (.gp (k + 1))), ∑ k ∈ Finset.range n, meanSquare (err (.collision (k + 1)))) := by
  classical
  set f : ℝ × ℝ → List Char × List ℝ → ℝ × ℝ := fun acc c =>
    (if ['g', 'p'] <:+: c.1 then acc.1 + meanSquare c.2 else acc.1,
     if ['c', 'o', 'l', 'l', 'i', 's', 'i', 'o', 'n'] <:+: c.1 then acc.2 + meanSquare c.2 else acc.2) with hf
  have hstep : ∀ (acc : ℝ × ℝ) (c : CName), f acc (c.chars, err c) =
      (match c with | .gp i => acc.1 + meanSquare (err (.gp i)) | _ => acc.1,
       match c with | .collision i => acc.2 + meanSquare (err (.collision i)) | _ => acc.2) := by
    intro acc c
    simp only [hf, gp_infix, collision_infix]
    cases c <;> simp
  have h0 : totalErrors ((entries single nh pv n).map fun e => (e.name.chars, err e.name)) =
      ((entries single nh pv n).map fun e => (e.name.chars, err e.name)).foldl f (0, 0) := by
    unfold totalErrors
    congr 1
  rw [h0]
  have h1 : ∀ es : List Entry, ∀ acc, (es.map fun e => (e.name.chars, err e.name)).foldl f acc =
      es.foldl (fun acc e => f acc (e.name.chars, err e.name)) acc := fun es acc => by rw [List.foldl_map]
  rw [h1, entries, List.foldl_append]
  have h2 : ∀ m, ((List.range m).flatMap fun k =>
      ([⟨.collision (k + 1), [.pose (k + 1)], [.sdfOrigin, .sdfData, .cellSize, .costEps, collisionVar single (k + 1)]⟩,
       ⟨.gp (k + 1), [.pose k, .vel k, .pose (k + 1), .vel (k + 1)], [.dt, .qcInv, .dt]⟩] : List Entry) ++
      (if nh then [⟨.nonholonomic (k + 1), [.pose (k + 1), .vel (k + 1)], [.nhScale]⟩] else []) ++
      (if pv then [⟨.positiveVel (k + 1), [.vel k], [.down (k + 1), .up (k + 1), .thres (k + 1), .pvScale]⟩] else [])).foldl
        (fun acc e => f acc (e.name.chars, err e.name)) (0, 0) =
      (∑ k ∈ Finset.range m, meanSquare (err (.gp (k + 1))), ∑ k ∈ Finset.range m, meanSquare (err (.collision (k + 1)))) := by
    intro m
    induction m with
    | zero => rfl
    | succ m ih =>
      rw [List.range_succ, List.flatMap_append, List.foldl_append, ih, Finset.sum_range_succ, Finset.sum_range_succ]
      cases nh <;> cases pv <;> simp [hstep]
  have h3 : ([⟨.pose0, [.pose 0], [.start, .boundaryW]⟩, ⟨.vel0, [.vel 0], [.zeroFirst, .boundaryW]⟩,
      ⟨.poseN, [.pose n], [.goal, .boundaryW]⟩, ⟨.velN, [.vel n], [.zeroLast, .boundaryW]⟩] : List Entry).foldl
        (fun acc e => f acc (e.name.chars, err e.name)) (0, 0) = (0, 0) := by
    simp [hstep]
  rw [h3]
  exact h2 n

/-! ### Copies -/

/-- **`copy`** of a planner without the optional costs builds the same objective. -/
theorem copy_same (a : Args) (hg : a.given = true) (hn : a.nonholonomicW = 0) (hp : a.positiveVelW = 0) :
    copyArgs a a.dtype none = a := by
  obtain ⟨given, mapSize, epsDist, totalTime, collisionW, qcSize, qcInv, numSteps, single, poseType, dtype, nonholonomicW,
    positiveVelW, dflt⟩ := a
  simp only at hg hn hp
  subst hg hn hp
  rfl

/-- **A defect.** The copy of a planner with a nonholonomic or positive velocity cost has neither: it has fewer cost functions. -/
theorem copy_drops {a : Args} {s s' : State} (hs : build a = .ok s) (h : 0 < a.nonholonomicW ∨ 0 < a.positiveVelW)
    {w : Option ℝ} (hs' : build (copyArgs a a.dtype w) = .ok s') : (iter s').length < (iter s).length := by
  classical
  have h1 := (build_costs hs).length_eq
  have h2 := (build_costs hs').length_eq
  have hN := ((build_returns a).1 ⟨s, hs⟩).steps
  rw [← h1, ← h2]
  have len : ∀ (single nh pv : Bool) (n : ℕ), (entries single nh pv n).length =
      4 + n * (2 + (if nh then 1 else 0) + (if pv then 1 else 0)) := by
    intro single nh pv n
    unfold entries
    rw [List.length_append]
    congr 1
    induction n with
    | zero => simp
    | succ n ih =>
      rw [List.range_succ, List.flatMap_append, List.length_append, ih, Nat.succ_mul]
      cases nh <;> cases pv <;> simp
  rw [len, len]
  have e1 : (copyArgs a a.dtype w).numSteps = a.numSteps := rfl
  have e2 : ¬ 0 < (copyArgs a a.dtype w).nonholonomicW := lt_irrefl _
  have e3 : ¬ 0 < (copyArgs a a.dtype w).positiveVelW := lt_irrefl _
  rw [e1]
  simp only [e2, e3, decide_false, Bool.false_eq_true, if_false, add_zero]
  have hn : 1 ≤ a.numSteps.toNat := by omega
  rcases h with h | h
  · have : a.numSteps.toNat * 2 < a.numSteps.toNat * (2 + (if decide (0 < a.nonholonomicW) then 1 else 0) +
        (if decide (0 < a.positiveVelW) then 1 else 0)) := by
      refine Nat.mul_lt_mul_of_pos_left ?_ hn
      rw [if_pos (by simpa using h)]; omega
    omega
  · have : a.numSteps.toNat * 2 < a.numSteps.toNat * (2 + (if decide (0 < a.nonholonomicW) then 1 else 0) +
        (if decide (0 < a.positiveVelW) then 1 else 0)) := by
      refine Nat.mul_lt_mul_of_pos_left ?_ hn
      rw [if_pos (c := decide (0 < a.positiveVelW) = true) (by simpa using h)]; omega
    omega

/-- The collision weight of a copy: the given one, unless that is zero. **A defect**: the initial trajectory model asks for the weight
`0.0` "ignoring obstacles" and gets the original planner's. -/
theorem copy_weight (a : Args) (d : ℕ) (w : ℝ) :
    (w ≠ 0 → (copyArgs a d (some w)).collisionW = w) ∧ (copyArgs a d (some 0)).collisionW = a.collisionW ∧
    (copyArgs a d none).collisionW = a.collisionW := by
  refine ⟨fun h => ?_, ?_, rfl⟩ <;> simp [copyArgs, orWeight]
  intro h'; exact absurd h' h

end Verif.Planner
