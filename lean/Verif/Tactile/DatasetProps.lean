import Verif.Tactile.Dataset
import Verif.PoseGraph.DatasetProps
import Mathlib.Data.List.Perm.Basic

/-!
# The example datasets: properties (C108)
-/

namespace Verif.Tactile
open Verif.Planner (Exc)
open Verif.PoseGraph (slice chunk slice_chunk chunks_flatten bound)

variable {ρ : Type}

/-! ### Reading -/

theorem mem_insertId {x y : ℤ} {l : List ℤ} : y ∈ insertId x l ↔ y = x ∨ y ∈ l := by
  induction l with
  | nil => simp [insertId]
  | cons z l ih =>
    unfold insertId
    split
    · simp
    · split
      · rename_i h; subst h; simp
      · simp only [List.mem_cons, ih]; tauto

theorem insertId_sorted {x : ℤ} {l : List ℤ} (h : l.Pairwise (· < ·)) : (insertId x l).Pairwise (· < ·) := by
  induction l with
  | nil => simp [insertId]
  | cons z l ih =>
    rw [List.pairwise_cons] at h
    unfold insertId
    split
    · rename_i hx
      rw [List.pairwise_cons, List.pairwise_cons]
      refine ⟨fun y hy => ?_, h⟩
      rcases List.mem_cons.1 hy with rfl | hy
      · exact hx
      · exact hx.trans (h.1 y hy)
    · split
      · rw [List.pairwise_cons]; exact h
      · rw [List.pairwise_cons]
        refine ⟨fun y hy => ?_, ih h.2⟩
        rcases mem_insertId.1 hy with rfl | hy
        · omega
        · exact h.1 y hy

/-- The episodes in increasing order, each once. -/
theorem uniqueIds_spec (l : List ℤ) : (uniqueIds l).Pairwise (· < ·) ∧ ∀ x, x ∈ uniqueIds l ↔ x ∈ l := by
  induction l with
  | nil => simp [uniqueIds]
  | cons y l ih =>
    exact ⟨insertId_sorted ih.1, fun x => by rw [uniqueIds, mem_insertId, ih.2, List.mem_cons]⟩

/-- Specification: what is kept of an episode. -/
def kept (L : ℕ) (split : Bool) (steps : List ρ) : List (List ρ) :=
  if steps.length < L then [] else if split then (List.range (steps.length / L)).map fun k => chunk L k steps else [steps.take L]

theorem readLoop_spec (ep : ρ → ℤ) (rows : List ρ) {L maxE : ℕ} {split : Bool} (ids : List ℤ) :
    ∀ acc es, readLoop ep rows L maxE split acc ids = .ok es → ∃ taken rest, ids = taken ++ rest ∧
      es = acc ++ taken.flatMap (fun e => kept L split (stepsOf ep rows e)) ∧ (rest = [] ∨ maxE ≤ es.length) ∧
      (∀ t x u, taken = t ++ x :: u →
        acc.length + (t.flatMap fun e => kept L split (stepsOf ep rows e)).length < maxE) ∧
      ∀ e ∈ taken, (stepsOf ep rows e).length ≠ 1 := by
  induction ids with
  | nil =>
    intro acc es h
    cases h
    exact ⟨[], [], rfl, by simp, .inl rfl, by simp, by simp⟩
  | cons e ids ih =>
    intro acc es h
    rw [readLoop] at h
    split at h
    · rename_i hmax
      cases h
      exact ⟨[], e :: ids, rfl, by simp, .inr hmax, by simp, by simp⟩
    rename_i hmax
    split at h
    · cases h
    rename_i h1
    have step : ∀ acc', acc' = acc ++ kept L split (stepsOf ep rows e) → readLoop ep rows L maxE split acc' ids = .ok es →
        ∃ taken rest, e :: ids = taken ++ rest ∧
      es = acc ++ taken.flatMap (fun e => kept L split (stepsOf ep rows e)) ∧ (rest = [] ∨ maxE ≤ es.length) ∧
      (∀ t x u, taken = t ++ x :: u →
        acc.length + (t.flatMap fun e => kept L split (stepsOf ep rows e)).length < maxE) ∧
      ∀ e ∈ taken, (stepsOf ep rows e).length ≠ 1 := by
      rintro acc' rfl h'
      obtain ⟨taken, rest, h2, h3, h4, h5, h6⟩ := ih _ es h'
      refine ⟨e :: taken, rest, by rw [h2]; rfl, by rw [h3]; simp, h4, ?_, ?_⟩
      · intro t x u htu
        cases t with
        | nil => simpa using hmax
        | cons y t =>
          simp only [List.cons_append, List.cons.injEq] at htu
          obtain ⟨rfl, htu⟩ := htu
          have := h5 t x u htu
          rw [List.length_append] at this
          rw [List.flatMap_cons, List.length_append]
          omega
      · intro x hx
        rcases List.mem_cons.1 hx with rfl | hx
        · exact h1
        · exact h6 x hx
    split at h
    · rename_i h2
      exact step _ (by simp [kept, h2]) h
    · rename_i h2
      have h2 : ¬ (stepsOf ep rows e).length < L := h2
      unfold pieces at h
      by_cases hs : split = true
      · rw [if_pos hs] at h
        by_cases hL : L = 0
        · rw [if_pos hL] at h; cases h
        · rw [if_neg hL] at h
          refine step _ ?_ h
          rw [kept, if_neg h2, if_pos hs]; rfl
      · rw [if_neg hs] at h
        refine step _ ?_ h
        rw [kept, if_neg h2, if_neg hs]

/-- **What is read from a file**: the recorded episodes in the order of their numbers, up to and including the one with which the
requested number is reached (or all of them); of each that is long enough all consecutive pieces of the requested length, or the
first one. -/
theorem load_spec {ep : ρ → ℤ} {rows : List ρ} {L maxE : ℕ} {split : Bool} {es : List (List ρ)}
    (h : loadEpisodes ep rows L maxE split = .ok es) : es ≠ [] ∧ ∃ taken rest, uniqueIds (rows.map ep) = taken ++ rest ∧
      es = taken.flatMap (fun e => kept L split (stepsOf ep rows e)) ∧ (rest = [] ∨ maxE ≤ es.length) ∧
      ∀ t x u, taken = t ++ x :: u → (t.flatMap fun e => kept L split (stepsOf ep rows e)).length < maxE := by
  unfold loadEpisodes at h
  split at h
  · cases h
  · cases h
  · rename_i e' es' heq
    cases h
    obtain ⟨taken, rest, h1, h2, h3, h4, -⟩ := readLoop_spec ep rows _ _ _ heq
    exact ⟨by simp, taken, rest, h1, by simpa using h2, h3, by simpa using h4⟩

theorem kept_mem {L : ℕ} (hL : 1 ≤ L) {split : Bool} {steps e : List ρ} (h : e ∈ kept L split steps) :
    e.length = L ∧ ∃ k, e = chunk L k steps ∧ (split = false → k = 0) := by
  unfold kept at h
  split at h
  · simp at h
  rename_i hl
  split at h
  · rename_i hs
    obtain ⟨k, hk, rfl⟩ := List.mem_map.1 h
    rw [List.mem_range] at hk
    refine ⟨?_, k, rfl, by simp [hs]⟩
    have h1 : (k + 1) * L ≤ steps.length := (Nat.le_div_iff_mul_le hL).1 hk
    rw [Nat.succ_mul] at h1
    rw [chunk, List.length_take, List.length_drop]
    omega
  · simp only [List.mem_singleton] at h
    subst h
    exact ⟨by rw [List.length_take]; omega, 0, by simp [chunk], fun _ => rfl⟩

/-- **Episodes have the requested length and are consecutive steps of one recorded episode**; without splitting there are at most
`max_episodes`, with splitting there can be more, but fewer than `max_episodes` before the last recorded episode. -/
theorem load_episodes {ep : ρ → ℤ} {rows : List ρ} {L maxE : ℕ} (hL : 1 ≤ L) {split : Bool} {es : List (List ρ)}
    (h : loadEpisodes ep rows L maxE split = .ok es) :
    (∀ e ∈ es, e.length = L ∧ ∃ i k, e = ((rows.filter fun r => ep r == i).drop (k * L)).take L ∧ (split = false → k = 0)) ∧
    (split = false → es.length ≤ maxE) := by
  obtain ⟨hne, taken, rest, h1, h2, h3, h4⟩ := load_spec h
  refine ⟨fun e he => ?_, fun hs => ?_⟩
  · rw [h2] at he
    obtain ⟨i, -, hi⟩ := List.mem_flatMap.1 he
    obtain ⟨h5, k, h6, h7⟩ := kept_mem hL hi
    exact ⟨h5, i, k, h6, h7⟩
  · rcases List.eq_nil_or_concat taken with h5 | ⟨t, x, h5⟩
    · rw [h2, h5]; simp
    · rw [List.concat_eq_append] at h5
      have := h4 t x [] h5
      rw [h2, h5, List.flatMap_append, List.length_append, List.flatMap_cons, List.flatMap_nil, List.append_nil]
      have hk : (kept L split (stepsOf ep rows x)).length ≤ 1 := by
        unfold kept
        split
        · simp
        · rw [if_neg (by simp [hs])]; simp
      omega

/-- Steps are pairs of episode and time: three episodes of lengths 5, 2 and 3. -/
def exRows : List (ℤ × ℕ) := [(1, 0), (1, 1), (1, 2), (1, 3), (1, 4), (2, 0), (2, 1), (5, 0), (5, 1), (5, 2)]

example : loadEpisodes Prod.fst exRows 2 2 true = .ok [[(1, 0), (1, 1)], [(1, 2), (1, 3)]] ∧
    loadEpisodes Prod.fst exRows 2 3 true = .ok [[(1, 0), (1, 1)], [(1, 2), (1, 3)], [(2, 0), (2, 1)]] ∧
    loadEpisodes Prod.fst exRows 2 1 true = .ok [[(1, 0), (1, 1)], [(1, 2), (1, 3)]] ∧
    loadEpisodes Prod.fst exRows 3 5 false = .ok [[(1, 0), (1, 1), (1, 2)], [(5, 0), (5, 1), (5, 2)]] := by
  decide +kernel

/-- **An episode with a single step cannot be read**, whatever the rest of the file: it is not skipped like other short episodes. -/
theorem single_step_raises {ep : ρ → ℤ} {rows : List ρ} {L maxE : ℕ} {split : Bool} (hm : 1 ≤ maxE) {e : ℤ}
    (h1 : (rows.filter fun r => ep r == e).length = 1) (h2 : ∀ r ∈ rows, e ≤ ep r) :
    loadEpisodes ep rows L maxE split = .error .value := by
  obtain ⟨h3, h4⟩ := uniqueIds_spec (rows.map ep)
  have he : e ∈ uniqueIds (rows.map ep) := by
    rw [h4]
    obtain ⟨r, hr⟩ := List.length_eq_one_iff.1 h1
    have : r ∈ rows.filter fun r => ep r == e := by rw [hr]; simp
    rw [List.mem_filter, beq_iff_eq] at this
    exact List.mem_map.2 ⟨r, this.1, this.2⟩
  have : ∃ es, uniqueIds (rows.map ep) = e :: es := by
    cases hu : uniqueIds (rows.map ep) with
    | nil => rw [hu] at he; simp at he
    | cons x es =>
      rw [hu] at he h3 h4
      rcases List.mem_cons.1 he with rfl | hx
      · exact ⟨es, rfl⟩
      · exfalso
        have h5 := (List.pairwise_cons.1 h3).1 e hx
        obtain ⟨r, hr, hrx⟩ := List.mem_map.1 ((h4 x).1 (by simp))
        have := h2 r hr
        omega
  obtain ⟨es, hes⟩ := this
  unfold loadEpisodes
  rw [hes, readLoop, if_neg (by simp; omega), if_pos (by exact h1)]

example : loadEpisodes Prod.fst ((0, 0) :: exRows) 2 5 true = .error .value := by decide +kernel

/-! ### Training and validation -/

/-- **Training and validation sets partition the episodes** for every permutation. -/
theorem split_partition {n : ℕ} {order : List ℕ} (h : order.Perm (List.range n)) (ratio : ℝ) :
    (selected n order ratio .val ++ selected n order ratio .train).Perm (selected n order ratio .all) ∧
    (selected n order ratio .val).length = min n (valCount n ratio) ∧
    List.Disjoint (selected n order ratio .val) (selected n order ratio .train) := by
  have hl : order.length = n := by rw [h.length_eq, List.length_range]
  have hn : (order.take (valCount n ratio) ++ order.drop (valCount n ratio)).Nodup := by
    rw [List.take_append_drop]; exact h.nodup_iff.2 List.nodup_range
  refine ⟨by simpa [selected] using h, by simp [selected, hl, min_comm], ?_⟩
  exact (List.nodup_append'.1 hn).2.2

/-- **How many episodes are for validation**: the requested fraction, rounded up, but two at least: also with `val_ratio = 0`, and a
dataset of two episodes leaves nothing for training. -/
theorem val_count (n : ℕ) (ratio : ℝ) : 2 ≤ valCount n ratio ∧ (ratio ≤ 0 → valCount n ratio = 2) ∧
    ((1 : ℝ) < n * ratio → (n * ratio ≤ valCount n ratio ∧ (valCount n ratio : ℝ) < n * ratio + 1)) := by
  unfold valCount
  refine ⟨by omega, fun h => ?_, fun h => ?_⟩
  · have : ⌈(n : ℝ) * ratio⌉ ≤ 0 := Int.ceil_le.2 (by
      have : (0 : ℝ) ≤ n := Nat.cast_nonneg n
      push_cast; nlinarith)
    omega
  · have h2 : 2 ≤ ⌈(n : ℝ) * ratio⌉ := by
      have : (1 : ℤ) < ⌈(n : ℝ) * ratio⌉ := Int.lt_ceil.2 (by exact_mod_cast h)
      omega
    rw [max_eq_left h2]
    have e : ((⌈(n : ℝ) * ratio⌉.toNat : ℕ) : ℝ) = (⌈(n : ℝ) * ratio⌉ : ℝ) := by
      have : ((⌈(n : ℝ) * ratio⌉.toNat : ℕ) : ℤ) = ⌈(n : ℝ) * ratio⌉ := Int.toNat_of_nonneg (by omega)
      exact_mod_cast congrArg (Int.cast : ℤ → ℝ) this
    rw [e]
    exact ⟨Int.le_ceil _, Int.ceil_lt_add_one _⟩

/-! ### Batches -/

/-- **The batches hold all episodes in order**, each once, cut to the time steps; there are `⌈size / batch size⌉` batches. The episodes
are those selected by the mode. -/
theorem tactile_batches {eps : List (List ρ)} {L : ℕ} {bs maxE maxS : ℕ} (hb : 0 < min bs maxE) {mode : Mode} {order : List ℕ}
    {ratio : ℝ} {d : Data ρ} (hd : create eps L bs maxE maxS mode order ratio = .ok d) :
    ∃ m : ℕ, d.numBatches = m ∧ (∀ k : ℕ, k < m ↔ k * min bs maxE < d.episodes.length) ∧
      (∀ k : ℕ, k < m → ∃ l, getBatch d k = .ok l ∧ l = (chunk (min bs maxE) k d.episodes).map (List.take (min maxS L)) ∧
        1 ≤ l.length ∧ l.length ≤ min bs maxE) ∧
      ((List.range m).map fun k => chunk (min bs maxE) k d.episodes).flatten = d.episodes ∧
      d.episodes = (selected eps.length order ratio mode).filterMap (fun i => eps[i]?) := by
  set b := min bs maxE with hbdef
  unfold create at hd
  dsimp only at hd
  have hbe : min (bs : ℤ) maxE = (b : ℤ) := by rw [hbdef]; push_cast; rfl
  rw [hbe, if_neg (by omega)] at hd
  cases hd
  dsimp only
  generalize (selected eps.length order ratio mode).filterMap (fun i => eps[i]?) = sel
  have hbz : (0 : ℤ) < b := by exact_mod_cast hb
  set n := sel.length with hn
  set q : ℤ := Int.fdiv ((n : ℤ) - 1) b with hq
  have hq1 : q * b ≤ n - 1 := by
    rw [hq, Int.fdiv_eq_ediv_of_nonneg _ hbz.le]; exact Int.ediv_mul_le _ hbz.ne'
  have hq2 : (n : ℤ) - 1 < (q + 1) * b := by
    rw [hq, Int.fdiv_eq_ediv_of_nonneg _ hbz.le]; exact Int.lt_ediv_add_one_mul_self _ hbz
  have hq0 : 0 ≤ q + 1 := by
    by_contra hneg
    have : (q + 1) * b ≤ -1 * b := by nlinarith
    nlinarith [Int.natCast_nonneg n]
  obtain ⟨m, hm⟩ : ∃ m : ℕ, q + 1 = m := ⟨(q + 1).toNat, (Int.toNat_of_nonneg hq0).symm⟩
  have hk : ∀ k : ℕ, k < m ↔ k * b < n := by
    intro k
    constructor
    · intro h
      have : (k : ℤ) ≤ q := by omega
      have h2 : (k : ℤ) * b ≤ q * b := by nlinarith
      have h3 : (k : ℤ) * b < n := by omega
      exact_mod_cast h3
    · intro h
      by_contra hc
      have : q + 1 ≤ k := by omega
      have h2 : (q + 1) * b ≤ k * b := by nlinarith
      have h3 : (k : ℤ) * b < n := by exact_mod_cast h
      omega
  refine ⟨m, hm, hk, fun k hkm => ⟨_, ?_, rfl, ?_, ?_⟩, chunks_flatten _ m ?_, rfl⟩
  · have hkn := (hk k).1 hkm
    unfold getBatch
    dsimp only
    rw [if_pos (by omega), slice_chunk sel rfl hkn.le]
    congr 1
    refine List.map_congr_left fun l _ => ?_
    have e0 : bound l.length 0 = 0 := by simp [bound]
    have e1 : bound l.length (min (maxS : ℤ) L) = min (min maxS L) l.length := by
      unfold bound
      have : min (maxS : ℤ) L = ((min maxS L : ℕ) : ℤ) := by push_cast; rfl
      rw [this, if_neg (by omega), Int.toNat_natCast]
    rw [slice, e0, e1, List.drop_zero]
    rcases le_total (min maxS L) l.length with h | h
    · rw [min_eq_left h]
    · rw [min_eq_right h, List.take_length, List.take_of_length_le h]
  · have hkn := (hk k).1 hkm
    rw [List.length_map, chunk, List.length_take, List.length_drop]
    omega
  · rw [List.length_map, chunk, List.length_take]
    omega
  · have h2 : (n : ℤ) ≤ m * b := by rw [← hm]; omega
    exact_mod_cast h2

/-- **Negative batch numbers pass the check**: batch `-1` is empty. -/
theorem tactile_minus_one {eps : List (List ρ)} {L : ℕ} {bs maxE maxS : ℕ} {mode : Mode} {order : List ℕ}
    {ratio : ℝ} {d : Data ρ} (hd : create eps L bs maxE maxS mode order ratio = .ok d) : getBatch d (-1) = .ok [] := by
  unfold create at hd
  dsimp only at hd
  split at hd
  · cases hd
  rename_i hb
  cases hd
  generalize (selected eps.length order ratio mode).filterMap (fun i => eps[i]?) = sel
  unfold getBatch
  dsimp only
  have hbz : (0 : ℤ) < min (bs : ℤ) maxE := by omega
  generalize min (bs : ℤ) maxE = b at hb hbz
  have hq2 : (sel.length : ℤ) - 1 < (Int.fdiv ((sel.length : ℤ) - 1) b + 1) * b := by
    rw [Int.fdiv_eq_ediv_of_nonneg _ hbz.le]; exact Int.lt_ediv_add_one_mul_self _ hbz
  have hq0 : 0 ≤ Int.fdiv ((sel.length : ℤ) - 1) b + 1 := by
    by_contra hneg
    have : (Int.fdiv ((sel.length : ℤ) - 1) b + 1) * b ≤ -1 * b := by nlinarith
    nlinarith [Int.natCast_nonneg sel.length]
  rw [if_pos (by omega)]
  have e : min (-1 * b + b) (sel.length : ℤ) = 0 := by rw [min_eq_left] <;> omega
  rw [e]
  simp [slice, bound]

example : ∃ d, create [[0, 1], [2, 3], [4, 5]] 2 2 10 10 .all [0, 1, 2] 0 = .ok d ∧ d.numBatches = 2 ∧
    getBatch d 1 = .ok [[4, 5]] := by
  refine ⟨_, rfl, ?_, ?_⟩
  · decide +kernel
  · decide +kernel

/-! ### Trajectories -/

theorem slice_split {α : Type} (l : List α) {k : ℤ} (hk : 0 ≤ k) : slice 0 k l = l.take k.toNat ∧ slice k (l.length : ℤ) l = l.drop k.toNat := by
  have e0 : bound l.length 0 = 0 := by simp [bound]
  have e1 : bound l.length k = min k.toNat l.length := by rw [bound, if_neg (by omega)]
  have e2 : bound l.length (l.length : ℤ) = l.length := by rw [bound, if_neg (by omega)]; simp
  constructor
  · rw [slice, e0, e1, List.drop_zero]
    rcases le_total k.toNat l.length with h | h
    · rw [min_eq_left h]
    · rw [min_eq_right h, List.take_length, List.take_of_length_le h]
  · rw [slice, e1, e2, List.take_length]
    rcases le_total k.toNat l.length with h | h
    · rw [min_eq_left h]
    · rw [min_eq_right h, List.drop_length, List.drop_of_length_le h]

/-- **Training and validation files are disjoint and together all files** of the chosen types without collisions, for ratios up
to 1, however the two lists are shuffled and how many files are asked for. -/
theorem trajectory_split {types : List ℕ} (ht : types.Nodup) (use : ℕ → Bool) (collides : ℕ → ℕ → Bool) (numEnvs : ℕ) {ratio : ℝ}
    (h1 : ratio ≤ 1) :
    ((splitFiles types use collides numEnvs ratio).1 ++ (splitFiles types use collides numEnvs ratio).2).Nodup ∧
    (∀ t i, (t, i) ∈ (splitFiles types use collides numEnvs ratio).1 ++ (splitFiles types use collides numEnvs ratio).2 ↔
      t ∈ types ∧ use t = true ∧ i < numEnvs ∧ collides t i = false) ∧
    ∀ tr va (n m : ℤ), tr.Perm (splitFiles types use collides numEnvs ratio).1 →
      va.Perm (splitFiles types use collides numEnvs ratio).2 → List.Disjoint (chooseFiles tr n) (chooseFiles va m) := by
  have hk : 0 ≤ numTrain ratio numEnvs := by
    have : 0 ≤ (1 - ratio) * numEnvs := mul_nonneg (by linarith) (Nat.cast_nonneg _)
    unfold numTrain
    rw [if_pos this]
    exact Int.floor_nonneg.2 this
  set k := (numTrain ratio numEnvs).toNat with hkdef
  set A := (types.filter use).flatMap fun t => ((envsOf (collides t) numEnvs).take k).map fun i => (t, i) with hA
  set B := (types.filter use).flatMap fun t => ((envsOf (collides t) numEnvs).drop k).map fun i => (t, i) with hB
  have e : splitFiles types use collides numEnvs ratio = (A, B) := by
    unfold splitFiles
    dsimp only
    congr 1
    · exact List.flatMap_congr fun t _ => by rw [(slice_split _ hk).1]
    · exact List.flatMap_congr fun t _ => by rw [(slice_split _ hk).2]
  have henv : ∀ t, (envsOf (collides t) numEnvs).Nodup := fun t => List.nodup_range.filter _
  have hinj : ∀ t : ℕ, Function.Injective fun i : ℕ => (t, i) := fun t x y h => by simpa using h
  have hAn : A.Nodup := by
    rw [hA, List.nodup_flatMap]
    refine ⟨fun t _ => ((henv t).sublist (List.take_sublist _ _)).map (hinj t), ?_⟩
    refine List.Pairwise.imp ?_ (ht.filter use)
    intro t t' htt x hx hy
    obtain ⟨i, -, rfl⟩ := List.mem_map.1 hx
    obtain ⟨j, -, hj⟩ := List.mem_map.1 hy
    exact htt (congrArg Prod.fst hj).symm
  have hBn : B.Nodup := by
    rw [hB, List.nodup_flatMap]
    refine ⟨fun t _ => ((henv t).sublist (List.drop_sublist _ _)).map (hinj t), ?_⟩
    refine List.Pairwise.imp ?_ (ht.filter use)
    intro t t' htt x hx hy
    obtain ⟨i, -, rfl⟩ := List.mem_map.1 hx
    obtain ⟨j, -, hj⟩ := List.mem_map.1 hy
    exact htt (congrArg Prod.fst hj).symm
  have hdis : List.Disjoint A B := by
    intro x hx hy
    obtain ⟨t, -, hx⟩ := List.mem_flatMap.1 hx
    obtain ⟨t', -, hy⟩ := List.mem_flatMap.1 hy
    obtain ⟨i, hi, rfl⟩ := List.mem_map.1 hx
    obtain ⟨j, hj, hij⟩ := List.mem_map.1 hy
    simp only [Prod.mk.injEq] at hij
    obtain ⟨rfl, rfl⟩ := hij
    have h2 : ((envsOf (collides t') numEnvs).take k ++ (envsOf (collides t') numEnvs).drop k).Nodup := by
      rw [List.take_append_drop]; exact henv t'
    exact (List.nodup_append'.1 h2).2.2 hi hj
  rw [e]
  refine ⟨List.nodup_append'.2 ⟨hAn, hBn, hdis⟩, fun t i => ?_, fun tr va n m htr hva x hx hy => ?_⟩
  · have hm : ∀ t i, i ∈ envsOf (collides t) numEnvs ↔ i < numEnvs ∧ collides t i = false := by
      intro t i; simp [envsOf]
    rw [← hm]
    conv_rhs => rw [← List.take_append_drop k (envsOf (collides t) numEnvs)]
    simp only [hA, hB, List.mem_append, List.mem_flatMap, List.mem_filter, List.mem_map, Prod.mk.injEq]
    constructor
    · rintro (⟨t', ⟨h3, h4⟩, i', h5, rfl, rfl⟩ | ⟨t', ⟨h3, h4⟩, i', h5, rfl, rfl⟩)
      · exact ⟨h3, h4, .inl h5⟩
      · exact ⟨h3, h4, .inr h5⟩
    · rintro ⟨h3, h4, h5 | h5⟩
      · exact .inl ⟨t, ⟨h3, h4⟩, i, h5, rfl, rfl⟩
      · exact .inr ⟨t, ⟨h3, h4⟩, i, h5, rfl, rfl⟩
  · have hsub : ∀ (l : List (ℕ × ℕ)) (n : ℤ), ∀ x ∈ chooseFiles l n, x ∈ l := by
      intro l n x hx
      exact List.mem_of_mem_take (List.mem_of_mem_drop hx)
    exact hdis (htr.mem_iff.1 (hsub _ _ _ hx)) (hva.mem_iff.1 (hsub _ _ _ hy))

/-- **The number of training files is counted before colliding maps are removed**: if at most `num_train` maps of each chosen type
are left, all files are for training and the validation set is empty, whatever the ratio. -/
theorem trajectory_val_empty {types : List ℕ} (use : ℕ → Bool) (collides : ℕ → ℕ → Bool) (numEnvs : ℕ) {ratio : ℝ}
    (h1 : ratio ≤ 1) (h : ∀ t ∈ types, use t = true → ((envsOf (collides t) numEnvs).length : ℤ) ≤ numTrain ratio numEnvs) :
    (splitFiles types use collides numEnvs ratio).2 = [] := by
  have hk : 0 ≤ numTrain ratio numEnvs := by
    have : 0 ≤ (1 - ratio) * numEnvs := mul_nonneg (by linarith) (Nat.cast_nonneg _)
    unfold numTrain
    rw [if_pos this]
    exact Int.floor_nonneg.2 this
  unfold splitFiles
  dsimp only
  rw [List.flatMap_eq_nil_iff]
  intro t ht
  rw [List.mem_filter] at ht
  rw [(slice_split _ hk).2, List.drop_of_length_le, List.map_nil]
  have := h t ht.1 ht.2
  omega

/-- Ten maps, two of which collide, and a fifth for validation: nothing is left to validate with. -/
example : (splitFiles [0] (fun _ => true) (fun _ i => decide (i < 2)) 10 (1 / 5)).2 = [] := by
  refine trajectory_val_empty _ _ _ (by norm_num) fun t _ _ => ?_
  have : numTrain (1 / 5) 10 = 8 := by
    unfold numTrain
    norm_num
  rw [this]
  decide +kernel

end Verif.Tactile
