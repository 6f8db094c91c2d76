import Verif.Tactile.Model
import Verif.Geometry.PlanarLog
import Verif.Planner.TrajectoryProps

/-!
# Tactile pose estimation: the inputs (C106)
-/

namespace Verif.Tactile
open Verif.Geometry
open Verif.Planner (Exc)

/-! ### Windows -/

/-- Specification: there is a measurement between the steps `s` and `t` if their distance is `min`, `min + step`, …, below `max`
and below `t`. -/
def IsPair (w : Win) (T s t : ℕ) : Prop := t < T ∧ ∃ k, s + (w.min + k * w.step) = t ∧ w.min + k * w.step < w.max ∧ 1 ≤ s

theorem mem_pyRange {a b st x : ℕ} (hs : 1 ≤ st) : x ∈ pyRange a b st ↔ ∃ k, x = a + k * st ∧ x < b := by
  unfold pyRange
  rw [List.mem_range']
  constructor
  · rintro ⟨i, hi, rfl⟩
    refine ⟨i, by rw [mul_comm], ?_⟩
    have h1 : (i + 1) * st ≤ b - a + st - 1 := (Nat.le_div_iff_mul_le hs).1 hi
    have : (i + 1) * st = st * i + st := by ring
    omega
  · rintro ⟨k, rfl, h⟩
    refine ⟨k, ?_, by rw [mul_comm]⟩
    refine (Nat.le_div_iff_mul_le hs).2 ?_
    rw [Nat.succ_mul]
    omega

theorem nodup_pyRange {a b st : ℕ} (hs : 1 ≤ st) : (pyRange a b st).Nodup := List.nodup_range' (step := st) (by omega)

/-- **The pairs with a measurement**, each once, in the estimator and in the inputs. -/
theorem pairs_spec (w : Win) (hw : 1 ≤ w.step) (T : ℕ) : (w.pairs T).Nodup ∧ ∀ s t, (s, t) ∈ w.pairs T ↔ IsPair w T s t := by
  have hmem : ∀ s t, (s, t) ∈ w.pairs T ↔ IsPair w T s t := by
    intro s t
    simp only [Win.pairs, Win.offsets, List.mem_flatMap, List.mem_range'_1, List.mem_map, mem_pyRange hw, Prod.mk.injEq, IsPair]
    constructor
    · rintro ⟨i, ⟨h1, h2⟩, o, ⟨k, rfl, h3⟩, h4, rfl⟩
      exact ⟨by omega, k, by omega, by omega, by omega⟩
    · rintro ⟨h1, k, h2, h3, h4⟩
      exact ⟨t, ⟨by omega, by omega⟩, w.min + k * w.step, ⟨k, rfl, by omega⟩, by omega, rfl⟩
  refine ⟨?_, hmem⟩
  unfold Win.pairs
  rw [List.nodup_flatMap]
  refine ⟨fun i _ => ?_, ?_⟩
  · refine List.Nodup.map_on (fun o ho o' ho' h => ?_) (nodup_pyRange hw)
    obtain ⟨k, -, h1⟩ := (mem_pyRange hw).1 ho
    obtain ⟨k', -, h1'⟩ := (mem_pyRange hw).1 ho'
    simp only [Prod.mk.injEq, and_true] at h
    omega
  · refine List.Pairwise.imp ?_ (List.nodup_range' (step := 1) (by omega))
    intro i j hij p hp hq
    obtain ⟨o, -, rfl⟩ := List.mem_map.1 hp
    obtain ⟨o', -, h⟩ := List.mem_map.1 hq
    simp only [Prod.mk.injEq] at h
    exact hij h.2.symm

/-- With windows from 10 to 40 in steps of 5 and 25 steps (the configuration of the example) there are 27 measurements. -/
example : IsPair ⟨10, 40, 5⟩ 25 2 12 ∧ ¬ IsPair ⟨10, 40, 5⟩ 25 0 10 ∧ ¬ IsPair ⟨10, 40, 5⟩ 25 3 12 ∧
    (Win.pairs ⟨10, 40, 5⟩ 25).length = 27 := by
  refine ⟨⟨by norm_num, 0, by norm_num, by norm_num, by norm_num⟩, ?_, ?_, by decide +kernel⟩
  · rintro ⟨-, k, h1, h2, h3⟩; simp only at h1; omega
  · rintro ⟨-, k, h1, h2, h3⟩; simp only at h1; omega

/-! ### Rows and columns -/

variable {ρ : Type}

theorem catRows_length (B : ℕ) (ws : List (ℕ × ℕ)) (f : ℕ → ℕ × ℕ → ρ) : (catRows B ws f).length = ws.length * B := by
  unfold catRows
  induction ws with
  | nil => simp
  | cons w ws ih => rw [List.flatMap_cons, List.length_append, ih]; simp; ring

/-- Row `j` belongs to pair `j / B` and batch element `j % B`. -/
theorem catRows_get {B : ℕ} (hB : 1 ≤ B) (ws : List (ℕ × ℕ)) (f : ℕ → ℕ × ℕ → ρ) (j : ℕ) :
    (catRows B ws f)[j]? = ws[j / B]?.map fun w => f (j % B) w := by
  unfold catRows
  induction ws generalizing j with
  | nil => simp
  | cons w ws ih =>
    rw [List.flatMap_cons]
    by_cases h : j < B
    · rw [List.getElem?_append_left (by simpa using h), Nat.div_eq_of_lt h, Nat.mod_eq_of_lt h]
      simp [h]
    · obtain ⟨i, rfl⟩ : ∃ i, j = i + B := ⟨j - B, by omega⟩
      rw [List.getElem?_append_right (by simp)]
      simp only [List.length_map, List.length_range, Nat.add_sub_cancel]
      rw [ih, Nat.add_div_right _ (by omega), Nat.add_mod_right]
      simp

theorem column_get {idx : ℕ} {t : List (List ρ)} (h : ∀ r ∈ t, idx < r.length) :
    ∃ c : List ρ, column idx t = .ok c ∧ c.length = t.length ∧ ∀ k : ℕ, c[k]? = t[k]?.bind fun r => r[idx]? := by
  induction t with
  | nil => exact ⟨[], rfl, rfl, fun k => by simp⟩
  | cons r t ih =>
    obtain ⟨c, h1, h2, h3⟩ := ih fun r hr => h r (by simp [hr])
    have h4 := h r (by simp)
    refine ⟨r[idx] :: c, ?_, by simp [h2], fun k => ?_⟩
    · simp [column, List.getElem?_eq_getElem h4, h1]
    · cases k with
      | zero => simp [List.getElem?_eq_getElem h4]
      | succ k => simpa using h3 k

theorem fill_get {t : List (List ρ)} {m : ℕ} (ht : ∀ r ∈ t, r.length = m) (ws : List (ℕ × ℕ)) (idx : ℕ) (h : idx + ws.length ≤ m) :
    ∃ l, fill t idx ws = .ok l ∧ l.map Prod.fst = ws ∧
      ∀ j w c, l[j]? = some (w, c) → ws[j]? = some w ∧ column (idx + j) t = .ok c := by
  induction ws generalizing idx with
  | nil => exact ⟨[], rfl, rfl, fun j w c h => by simp at h⟩
  | cons w ws ih =>
    simp only [List.length_cons] at h
    obtain ⟨c, h1, -, -⟩ := column_get (idx := idx) (t := t) fun r hr => by rw [ht r hr]; omega
    obtain ⟨l, h2, h3, h4⟩ := ih (idx + 1) (by omega)
    refine ⟨(w, c) :: l, by simp [fill, h1, h2], by simp [h3], fun j w' c' hj => ?_⟩
    cases j with
    | zero =>
      simp only [List.getElem?_cons_zero, Option.some.injEq, Prod.mk.injEq] at hj
      obtain ⟨rfl, rfl⟩ := hj
      exact ⟨rfl, by simpa using h1⟩
    | succ j =>
      simp only [List.getElem?_cons_succ] at hj
      obtain ⟨h5, h6⟩ := h4 j w' c' hj
      exact ⟨by simpa using h5, by rw [show idx + (j + 1) = idx + 1 + j by ring]; exact h6⟩

/-- What both functions return: entry `b` of the tensor for pair number `j` is row `b * m + j`. -/
theorem inputs_rows {rows : List ρ} {ws : List (ℕ × ℕ)} {m N : ℕ} (hm : 1 ≤ m) (hws : ws.length ≤ m) (hr : rows.length = N * m)
    (hN : 1 ≤ N) : ∃ t l, reshape rows m = .ok t ∧ fill t 0 ws = .ok l ∧ l.map Prod.fst = ws ∧
      ∀ j w c, l[j]? = some (w, c) → c.length = N ∧ ∀ b < N, c[b]? = rows[b * m + j]? := by
  have h0 : rows.length / m = N := by rw [hr, Nat.mul_div_cancel _ (by omega)]
  have hlen : ∀ k < N, ((rows.drop (k * m)).take m).length = m := by
    intro k hk
    rw [List.length_take, List.length_drop, hr]
    have : (k + 1) * m ≤ N * m := Nat.mul_le_mul_right _ hk
    rw [Nat.succ_mul] at this
    omega
  set t := (List.range N).map fun k => (rows.drop (k * m)).take m with ht
  have hrows : ∀ r ∈ t, r.length = m := by
    intro r hr'
    obtain ⟨k, hk, rfl⟩ := List.mem_map.1 hr'
    exact hlen k (by simpa using hk)
  have hre : reshape rows m = .ok t := by
    unfold reshape
    rw [if_neg, h0]
    rintro (h | h | h)
    · omega
    · rw [h] at hr
      have : 0 < N * m := Nat.mul_pos hN hm
      simp at hr; omega
    · exact h (by rw [hr, Nat.mul_mod_left])
  obtain ⟨l, h1, h2, h3⟩ := fill_get hrows ws 0 (by omega)
  refine ⟨t, l, hre, h1, h2, fun j w c hj => ?_⟩
  obtain ⟨h4, h5⟩ := h3 j w c hj
  have hj' : j < m := lt_of_lt_of_le (List.getElem?_eq_some_iff.1 h4).1 hws
  obtain ⟨c', h6, h7, h8⟩ := column_get (idx := 0 + j) (t := t) fun r hr => by rw [hrows r hr]; omega
  rw [h5] at h6
  cases h6
  refine ⟨by rw [h7, ht]; simp, fun b hb => ?_⟩
  rw [h8 b, ht]
  simp only [List.getElem?_map, List.getElem?_range hb, Option.map_some, Option.bind_some, Nat.zero_add]
  rw [List.getElem?_take_of_lt hj', List.getElem?_drop]

/-! ### The measurements -/

/-- The measurements are returned for a batch with elements and at least one pair; nothing else is. -/
theorem measurements_return (w : Win) (T B : ℕ) (f : ℕ → ℕ × ℕ → ρ) :
    ((∃ l, oracleInputs w T B f = .ok l) ↔ (1 ≤ w.step ∨ T ≤ w.min) ∧ w.pairs T ≠ [] ∧ 1 ≤ B) ∧
    ((∃ l, networkInputs w T B f = .ok l) ↔ (1 ≤ w.step ∨ T ≤ w.min) ∧ w.pairs T ≠ [] ∧ 1 ≤ B) := by
  have hz : w.zeroStep T = true ↔ ¬ (1 ≤ w.step ∨ T ≤ w.min) := by
    simp only [Win.zeroStep, Bool.and_eq_true, beq_iff_eq, decide_eq_true_eq]; omega
  have hB0 : ∀ m, B = 0 → reshape (catRows B (w.pairs T) f) m = .error .runtime := by
    intro m h
    have : catRows B (w.pairs T) f = [] := by
      rw [← List.length_eq_zero_iff, catRows_length, h, Nat.mul_zero]
    unfold reshape
    rw [if_pos (.inr (.inl this))]
  constructor
  all_goals
    by_cases h1 : 1 ≤ w.step ∨ T ≤ w.min
    swap
    · simp [oracleInputs, networkInputs, hz.2 h1, h1]
    by_cases h2 : w.pairs T = []
    · simp [oracleInputs, networkInputs, h2]
      split <;> simp
    rcases Nat.eq_zero_or_pos B with h3 | h3
    · simp only [oracleInputs, networkInputs, hB0 _ h3, if_neg (fun h => hz.1 h h1), if_neg h2]
      constructor
      · rintro ⟨l, h⟩; cases h
      · rintro ⟨-, -, h⟩; omega
    have hM : 1 ≤ (w.pairs T).length := List.length_pos_of_ne_nil h2
    have hl := catRows_length B (w.pairs T) f
    simp only [oracleInputs, networkInputs, if_neg (fun h => hz.1 h h1), if_neg h2]
    refine ⟨fun _ => ⟨h1, h2, h3⟩, fun _ => ?_⟩
  · obtain ⟨t, l, h4, h5, -⟩ := inputs_rows (rows := catRows B (w.pairs T) f) (ws := w.pairs T) hM le_rfl (N := B)
      (by rw [hl, mul_comm]) h3
    exact ⟨l, by rw [h4]; exact h5⟩
  · have hpos : 1 ≤ (w.pairs T).length * B := Nat.mul_pos hM h3
    obtain ⟨t, l, h4, h5, -⟩ := inputs_rows (rows := catRows B (w.pairs T) f) (ws := w.pairs T) (m := (catRows B (w.pairs T) f).length)
      (by rw [hl]; exact hpos) (by rw [hl]; exact Nat.le_mul_of_pos_right _ h3) (N := 1) (by rw [one_mul]) le_rfl
    exact ⟨l, by rw [h4]; exact h5⟩

/-- **Which measurement the estimator gets without a network**: there is one tensor per pair, with one row per batch element, but
row `b` of the tensor for pair number `j` is number `b * M + j` in the order "all batch elements of the first pair, all of the
second, …": it belongs to batch element `(b * M + j) % B` and pair number `(b * M + j) / B`. -/
theorem oracle_rows {w : Win} {T B : ℕ} {f : ℕ → ℕ × ℕ → ρ} {l : List ((ℕ × ℕ) × List ρ)} (h : oracleInputs w T B f = .ok l) :
    l.map Prod.fst = w.pairs T ∧ ∀ j p c, l[j]? = some (p, c) → c.length = B ∧ ∀ b < B,
      c[b]? = (w.pairs T)[(b * (w.pairs T).length + j) / B]?.map (f ((b * (w.pairs T).length + j) % B)) := by
  obtain ⟨h1, h2, h3⟩ := (measurements_return w T B f).1.1 ⟨l, h⟩
  have hM : 1 ≤ (w.pairs T).length := List.length_pos_of_ne_nil h2
  have hz : ¬ w.zeroStep T = true := by
    simp only [Win.zeroStep, Bool.and_eq_true, beq_iff_eq, decide_eq_true_eq]; omega
  obtain ⟨t, l', h4, h5, h6, h7⟩ := inputs_rows (rows := catRows B (w.pairs T) f) (ws := w.pairs T) hM le_rfl (N := B)
      (by rw [catRows_length, mul_comm]) h3
  unfold oracleInputs at h
  rw [if_neg hz, if_neg h2, h4] at h
  simp only [h5] at h
  cases h
  refine ⟨h6, fun j p c hj => ⟨(h7 j p c hj).1, fun b hb => ?_⟩⟩
  rw [(h7 j p c hj).2 b hb, catRows_get h3]

/-- **Which measurement the estimator gets with a network**: the tensor for pair number `j` has a single row, used for the whole
batch; it belongs to batch element `j % B` and pair number `j / B`. -/
theorem network_rows {w : Win} {T B : ℕ} {f : ℕ → ℕ × ℕ → ρ} {l : List ((ℕ × ℕ) × List ρ)} (h : networkInputs w T B f = .ok l) :
    l.map Prod.fst = w.pairs T ∧ ∀ j p c, l[j]? = some (p, c) → ∃ q, (w.pairs T)[j / B]? = some q ∧ c = [f (j % B) q] := by
  obtain ⟨h1, h2, h3⟩ := (measurements_return w T B f).2.1 ⟨l, h⟩
  have hM : 1 ≤ (w.pairs T).length := List.length_pos_of_ne_nil h2
  have hz : ¬ w.zeroStep T = true := by
    simp only [Win.zeroStep, Bool.and_eq_true, beq_iff_eq, decide_eq_true_eq]; omega
  have hl := catRows_length B (w.pairs T) f
  have hpos : 1 ≤ (w.pairs T).length * B := Nat.mul_pos hM h3
  obtain ⟨t, l', h4, h5, h6, h7⟩ := inputs_rows (rows := catRows B (w.pairs T) f) (ws := w.pairs T)
    (m := (catRows B (w.pairs T) f).length) (by rw [hl]; exact hpos) (by rw [hl]; exact Nat.le_mul_of_pos_right _ h3) (N := 1)
    (by rw [one_mul]) le_rfl
  unfold networkInputs at h
  rw [if_neg hz, if_neg h2, h4] at h
  simp only [h5] at h
  cases h
  refine ⟨h6, fun j p c hj => ?_⟩
  obtain ⟨h8, h9⟩ := h7 j p c hj
  have hj' : j < (w.pairs T).length := by
    have h10 := (List.getElem?_eq_some_iff.1 hj).1
    rw [← h6, List.length_map]; exact h10
  have hq : j / B < (w.pairs T).length := lt_of_le_of_lt (Nat.div_le_self _ _) hj'
  refine ⟨(w.pairs T)[j / B], List.getElem?_eq_getElem hq, ?_⟩
  have h10 := h9 0 one_pos
  rw [Nat.zero_mul, Nat.zero_add, catRows_get h3, List.getElem?_eq_getElem hq] at h10
  obtain ⟨x, rfl⟩ := List.length_eq_one_iff.1 h8
  simpa using h10

/-- What the inputs should be: for each pair its measurement in every batch element. -/
def aligned (ws : List (ℕ × ℕ)) (B : ℕ) (f : ℕ → ℕ × ℕ → ρ) : List ((ℕ × ℕ) × List ρ) :=
  ws.map fun p => (p, (List.range B).map fun b => f b p)

/-- **For one batch element, or one pair, the measurements are right** (with a network: only for one batch element). -/
theorem measurements_right_partial {w : Win} {T B : ℕ} {f : ℕ → ℕ × ℕ → ρ} {l : List ((ℕ × ℕ) × List ρ)} :
    (oracleInputs w T B f = .ok l → B = 1 ∨ (w.pairs T).length = 1 → l = aligned (w.pairs T) B f) ∧
    (networkInputs w T B f = .ok l → B = 1 → l = aligned (w.pairs T) B f) := by
  constructor
  · intro h h0
    obtain ⟨h1, h2⟩ := oracle_rows h
    have hB := ((measurements_return w T B f).1.1 ⟨l, h⟩).2.2
    have hlen : l.length = (w.pairs T).length := by rw [← h1, List.length_map]
    refine List.ext_getElem? fun j => ?_
    rcases lt_or_ge j l.length with hj | hj
    · obtain ⟨p, c, hpc⟩ : ∃ p c, l[j] = (p, c) := ⟨_, _, rfl⟩
      have hg : l[j]? = some (p, c) := by rw [List.getElem?_eq_getElem hj, hpc]
      obtain ⟨h3, h4⟩ := h2 j p c hg
      have h5 : (w.pairs T)[j]? = some p := by
        rw [← h1, List.getElem?_map, hg]; rfl
      rw [hg, aligned, List.getElem?_map, h5]
      simp only [Option.map_some, Option.some.injEq, Prod.mk.injEq, true_and]
      refine List.ext_getElem? fun b => ?_
      rcases lt_or_ge b B with hb | hb
      · rw [h4 b hb, List.getElem?_map, List.getElem?_range hb]
        have e : (b * (w.pairs T).length + j) / B = j ∧ (b * (w.pairs T).length + j) % B = b := by
          rcases h0 with h0 | h0
          · subst h0
            obtain rfl : b = 0 := by omega
            constructor
            · simp
            · simp [Nat.mod_one]
          · rw [h0] at hlen ⊢
            obtain rfl : j = 0 := by omega
            rw [Nat.mul_one, Nat.add_zero, Nat.div_eq_of_lt hb, Nat.mod_eq_of_lt hb]
            exact ⟨rfl, rfl⟩
        rw [e.1, e.2, h5]; rfl
      · rw [List.getElem?_eq_none (by omega), List.getElem?_eq_none (by simpa using hb)]
    · rw [List.getElem?_eq_none hj, List.getElem?_eq_none (by simp only [aligned, List.length_map]; omega)]
  · rintro h rfl
    obtain ⟨h1, h2⟩ := network_rows h
    have hlen : l.length = (w.pairs T).length := by rw [← h1, List.length_map]
    refine List.ext_getElem? fun j => ?_
    rcases lt_or_ge j l.length with hj | hj
    · obtain ⟨p, c, hpc⟩ : ∃ p c, l[j] = (p, c) := ⟨_, _, rfl⟩
      have hg : l[j]? = some (p, c) := by rw [List.getElem?_eq_getElem hj, hpc]
      obtain ⟨q, h3, h4⟩ := h2 j p c hg
      have h5 : (w.pairs T)[j]? = some p := by
        rw [← h1, List.getElem?_map, hg]; rfl
      rw [Nat.div_one, h5] at h3
      cases h3
      rw [hg, aligned, List.getElem?_map, h5, h4]
      simp [Nat.mod_one]
    · rw [List.getElem?_eq_none hj, List.getElem?_eq_none (by simp only [aligned, List.length_map]; omega)]

/-- **In batches the measurements are mixed up.** With two or more batch elements and two or more pairs the first batch element
gets, for the second pair, the second batch element's measurement of the first pair; a network's measurements even have the same
row for the whole batch, whatever it is. -/
theorem measurements_mixed {w : Win} {T B : ℕ} {f : ℕ → ℕ × ℕ → ρ} {l : List ((ℕ × ℕ) × List ρ)} (hB : 2 ≤ B) {p₀ p₁ : ℕ × ℕ}
    {ps : List (ℕ × ℕ)} (hp : w.pairs T = p₀ :: p₁ :: ps) :
    (oracleInputs w T B f = .ok l → ∃ c, l[1]? = some (p₁, c) ∧ c[0]? = some (f 1 p₀)) ∧
    (networkInputs w T B f = .ok l → l[1]? = some (p₁, [f 1 p₀])) := by
  constructor
  · intro h
    obtain ⟨h1, h2⟩ := oracle_rows h
    have hlen : l.length = ps.length + 2 := by rw [← List.length_map (f := Prod.fst), h1, hp]; rfl
    obtain ⟨p, c, hpc⟩ : ∃ p c, l[1] = (p, c) := ⟨_, _, rfl⟩
    have hg : l[1]? = some (p, c) := by rw [List.getElem?_eq_getElem (by omega), hpc]
    have h5 : (w.pairs T)[1]? = some p := by rw [← h1, List.getElem?_map, hg]; rfl
    rw [hp] at h5
    simp only [List.getElem?_cons_succ, List.getElem?_cons_zero, Option.some.injEq] at h5
    subst h5
    refine ⟨c, hg, ?_⟩
    rw [(h2 1 _ c hg).2 0 (by omega), Nat.zero_mul, Nat.zero_add, Nat.div_eq_of_lt (by omega), Nat.mod_eq_of_lt (by omega), hp]
    rfl
  · intro h
    obtain ⟨h1, h2⟩ := network_rows h
    have hlen : l.length = ps.length + 2 := by rw [← List.length_map (f := Prod.fst), h1, hp]; rfl
    obtain ⟨p, c, hpc⟩ : ∃ p c, l[1] = (p, c) := ⟨_, _, rfl⟩
    have hg : l[1]? = some (p, c) := by rw [List.getElem?_eq_getElem (by omega), hpc]
    have h5 : (w.pairs T)[1]? = some p := by rw [← h1, List.getElem?_map, hg]; rfl
    rw [hp] at h5
    simp only [List.getElem?_cons_succ, List.getElem?_cons_zero, Option.some.injEq] at h5
    subst h5
    obtain ⟨q, h3, rfl⟩ := h2 1 _ c hg
    rw [Nat.div_eq_of_lt (by omega), hp] at h3
    cases h3
    rw [hg, Nat.mod_eq_of_lt (by omega)]

/-- Windows of sizes 1 and 2 over four steps: pairs `(1,2)`, `(2,3)`, `(1,3)`; two batch elements. -/
example : oracleInputs ⟨1, 3, 1⟩ 4 2 (fun b p => (b, p)) =
    .ok [((1, 2), [(0, (1, 2)), (1, (2, 3))]), ((2, 3), [(1, (1, 2)), (0, (1, 3))]), ((1, 3), [(0, (2, 3)), (1, (1, 3))])] := by
  decide +kernel

/-! ### The measurements at the true poses -/

theorem oracle_measurement {eps deps : ℝ} (he : 0 < eps) {obj eff : ℕ → SE2} (ho : ∀ i, (obj i).Valid)
    (hf : ∀ i, (eff i).Valid) (p : ℕ × ℕ) : oracleMeasurement (SE2.ops eps deps) obj eff p =
      (SE2.ops eps deps).between ((SE2.ops eps deps).between (obj p.1) (eff p.1))
        ((SE2.ops eps deps).between (obj p.2) (eff p.2)) ∧ (oracleMeasurement (SE2.ops eps deps) obj eff p).Valid := by
  have L := SE2.lawful (eps := eps) (deps := deps) he
  have hv : ∀ a b : SE2, a.Valid → b.Valid → ((SE2.ops eps deps).between a b).Valid := fun a b ha hb =>
    L.compose_valid _ _ (L.inverse_valid _ ha) hb
  have h := hv _ _ (hv _ _ (ho p.1) (hf p.1)) (hv _ _ (ho p.2) (hf p.2))
  have e : oracleMeasurement (SE2.ops eps deps) obj eff p =
      (SE2.ops eps deps).between ((SE2.ops eps deps).between (obj p.1) (eff p.1))
        ((SE2.ops eps deps).between (obj p.2) (eff p.2)) := by
    have h1 := SO2.cos_log (show SO2.Valid _ from h)
    have h2 := SO2.sin_log (show SO2.Valid _ from h)
    ext
    · rfl
    · rfl
    · exact h1
    · exact h2
  exact ⟨e, e ▸ h⟩

theorem local_self {eps deps : ℝ} (he : 0 < eps) {a : SE2} (ha : a.Valid) : (SE2.ops eps deps).local a a = 0 := by
  have h : (SE2.ops eps deps).between a a = ⟨0, 0, 1, 0⟩ := by
    unfold SE2.Valid at ha
    ext <;> simp [Ops.between, SE2.ops, SE2.compose, SE2.inverse, SE2.mk', SO2.compose, SO2.inverse, SO2.rotate,
      SO2.rotateFromCosSin, SE2.rot, SE2.trans] <;> linarith
  unfold Ops.local
  rw [h]
  refine (Planner.log_no_rotation he _ rfl rfl).trans ?_
  funext i; fin_cases i <;> rfl

/-- **At the true poses the measurement costs vanish**, if the batch has one element (or there is one pair). -/
theorem oracle_truth_partial {eps deps : ℝ} (he : 0 < eps) {w : Win} {T B : ℕ} {obj eff : ℕ → ℕ → SE2}
    (ho : ∀ b i, (obj b i).Valid) (hf : ∀ b i, (eff b i).Valid) {l : List ((ℕ × ℕ) × List SE2)}
    (h : oracleInputs w T B (fun b p => oracleMeasurement (SE2.ops eps deps) (obj b) (eff b) p) = .ok l)
    (h1 : B = 1 ∨ (w.pairs T).length = 1) {p : ℕ × ℕ} {c : List SE2} (hp : (p, c) ∈ l) {b : ℕ} (hb : b < B) :
    ∃ m, c[b]? = some m ∧
      (SE2.ops eps deps).movingFrameError (obj b p.1) (obj b p.2) (eff b p.1) (eff b p.2) m = 0 := by
  have L := SE2.lawful (eps := eps) (deps := deps) he
  rw [measurements_right_partial.1 h h1, aligned] at hp
  obtain ⟨p', hp', e⟩ := List.mem_map.1 hp
  simp only [Prod.mk.injEq] at e
  obtain ⟨rfl, rfl⟩ := e
  refine ⟨_, by rw [List.getElem?_map, List.getElem?_range hb]; rfl, ?_⟩
  obtain ⟨e, hv⟩ := oracle_measurement (deps := deps) he (ho b) (hf b) p'
  unfold Ops.movingFrameError
  rw [← e]
  exact local_self he hv

/-- **At the true poses the measurement costs do not vanish in general**: two batch elements, one at rest and one whose effector
moves between the steps 1 and 2, windows of sizes 1 and 2 over four steps. -/
theorem oracle_truth_fails {eps deps : ℝ} (he : 0 < eps) : ∃ (obj eff : ℕ → ℕ → SE2) (l : List ((ℕ × ℕ) × List SE2)) (p : ℕ × ℕ)
    (c : List SE2) (m : SE2), (∀ b i, (obj b i).Valid) ∧ (∀ b i, (eff b i).Valid) ∧
    oracleInputs ⟨1, 3, 1⟩ 4 2 (fun b p => oracleMeasurement (SE2.ops eps deps) (obj b) (eff b) p) = .ok l ∧
    (p, c) ∈ l ∧ c[0]? = some m ∧
    (SE2.ops eps deps).movingFrameError (obj 0 p.1) (obj 0 p.2) (eff 0 p.1) (eff 0 p.2) m ≠ 0 := by
  have hv : ∀ x : ℝ, (⟨x, 0, 1, 0⟩ : SE2).Valid := fun x => by simp [SE2.Valid]
  set obj : ℕ → ℕ → SE2 := fun _ _ => ⟨0, 0, 1, 0⟩ with hobj
  set eff : ℕ → ℕ → SE2 := fun b i => ⟨if b = 1 ∧ i = 2 then 1 else 0, 0, 1, 0⟩ with heff
  have ho : ∀ b i, (obj b i).Valid := fun b i => hv 0
  have hf : ∀ b i, (eff b i).Valid := fun b i => hv _
  obtain ⟨l, hl⟩ := (measurements_return ⟨1, 3, 1⟩ 4 2
    (fun b p => oracleMeasurement (SE2.ops eps deps) (obj b) (eff b) p)).1.2 ⟨.inl le_rfl, by decide +kernel, by norm_num⟩
  obtain ⟨c, h1, h2⟩ := (measurements_mixed (le_refl 2) (p₀ := (1, 2)) (p₁ := (2, 3)) (ps := [(1, 3)]) (by decide +kernel)).1 hl
  refine ⟨obj, eff, l, (2, 3), c, _, ho, hf, hl, List.mem_of_getElem? h1, h2, ?_⟩
  rw [(oracle_measurement he (ho 1) (hf 1) _).1]
  have e : (SE2.ops eps deps).between ((SE2.ops eps deps).between ((SE2.ops eps deps).between (obj 1 1) (eff 1 1))
        ((SE2.ops eps deps).between (obj 1 2) (eff 1 2))) ((SE2.ops eps deps).between ((SE2.ops eps deps).between (obj 0 2) (eff 0 2))
        ((SE2.ops eps deps).between (obj 0 3) (eff 0 3))) = ⟨-1, 0, 1, 0⟩ := by
    ext <;> simp [Ops.between, SE2.ops, SE2.compose, SE2.inverse, SE2.mk', SO2.compose,
      SO2.inverse, SO2.rotate, SO2.rotateFromCosSin, SE2.rot, SE2.trans, hobj, heff]
  intro h0
  unfold Ops.movingFrameError Ops.local at h0
  rw [e] at h0
  have h3 := congrFun ((Planner.log_no_rotation he ⟨-1, 0, 1, 0⟩ rfl rfl).symm.trans h0) 0
  simp at h3

/-! ### The network and the other inputs -/

/-- **The measurement network is one affine map per class**: with the one-hot vector of class `c` the weights are the columns
`d * classes + c`. -/
theorem meas_model_class {d cl o : ℕ} (W : Matrix (Fin o) (Fin ((d + d) * cl)) ℝ) (b : Fin o → ℝ) (x1 x2 : Fin d → ℝ) (c : Fin cl) :
    measModel W b x1 x2 (Pi.single c 1) = fun r => (∑ e, W r (finProdFinEquiv (e, c)) * Fin.append x1 x2 e) + b r := by
  funext r
  unfold measModel
  dsimp only
  congr 1
  rw [← finProdFinEquiv.sum_comp, Fintype.sum_prod_type]
  refine Finset.sum_congr rfl fun e _ => ?_
  have h : ∀ c' : Fin cl, (finProdFinEquiv (e, c')).modNat = c' := fun c' =>
    congrArg Prod.snd (finProdFinEquiv.symm_apply_apply (e, c'))
  have h' : ∀ c' : Fin cl, (finProdFinEquiv (e, c')).divNat = e := fun c' =>
    congrArg Prod.fst (finProdFinEquiv.symm_apply_apply (e, c'))
  rw [Finset.sum_eq_single c]
  · rw [h, h']; simp
  · intro c' _ hc
    rw [h]
    simp [hc]
  · intro h; exact absurd (Finset.mem_univ c) h

/-- **Poses go in and out unchanged**, up to the rounding to torch's default dtype, for angles in `(-π, π]`; the initial values of
the optimization are the first pose for every step. -/
theorem poses_roundtrip (rnd : ℝ → ℝ) (p : Fin 3 → ℝ) (h1 : -Real.pi < p 2) (h2 : p 2 ≤ Real.pi) (poses : ℕ → Fin 3 → ℝ) (t : ℕ) :
    (ofXYTheta p).Valid ∧ poseFromValue rnd (ofXYTheta p) = ![rnd (p 0), rnd (p 1), rnd (p 2)] ∧
    initialPose poses t = ofXYTheta (poses 0) := by
  refine ⟨?_, ?_, rfl⟩
  · simp [SE2.Valid, ofXYTheta]
  · unfold poseFromValue ofXYTheta
    dsimp only
    rw [SO2.arg_cos_sin h1 h2]

end Verif.Tactile
