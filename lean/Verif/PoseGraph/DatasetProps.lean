import Verif.PoseGraph.Dataset
import Verif.PoseGraph.FileProps
import Verif.Geometry.LieProps

/-!
# Pose graph datasets: properties (C98)
-/

namespace Verif.PoseGraph
open Verif.Geometry

variable {P W : Type}

/-! ### Construction -/

/-- All poses, true poses and measurements have `n` elements. -/
def Sized (poses : List (List P)) (edges : List (Edge (List P) W)) (gt : Option (List (List P))) (n : ℕ) : Prop :=
  (∀ p ∈ poses, p.length = n) ∧ (∀ e ∈ edges, e.rel.length = n) ∧ ∀ g, gt = some g → ∀ p ∈ g, p.length = n

/-- A dataset is made exactly if it has a pose, true pose or edge, all of them have the same number of elements, and
the batch size is not 0. -/
theorem create_returns (poses : List (List P)) (edges : List (Edge (List P) W)) (gt : Option (List (List P)))
    (b : ℤ) (d : Data P W) : create poses edges gt b = .ok d ↔
      (poses ≠ [] ∨ edges ≠ [] ∨ gt.getD [] ≠ []) ∧ b ≠ 0 ∧
      ∃ n : ℕ, Sized poses edges gt n ∧ d = ⟨poses, edges, gt, b, n, Int.fdiv (n - 1) b + 1⟩ := by
  have hmem : ∀ n, Sized poses edges gt n ↔
      ∀ x ∈ poses.map List.length ++ ((gt.getD []).map List.length ++ edges.map fun e => e.rel.length), x = n := by
    intro n
    simp only [Sized, List.mem_append, List.mem_map]
    constructor
    · rintro ⟨h1, h2, h3⟩ x (⟨p, hp, rfl⟩ | ⟨p, hp, rfl⟩ | ⟨e, he, rfl⟩)
      · exact h1 p hp
      · cases gt with
        | none => simp at hp
        | some g => exact h3 g rfl p hp
      · exact h2 e he
    · intro h
      refine ⟨fun p hp => h _ (.inl ⟨p, hp, rfl⟩), fun e he => h _ (.inr (.inr ⟨e, he, rfl⟩)), ?_⟩
      rintro g rfl p hp
      exact h _ (.inr (.inl ⟨p, hp, rfl⟩))
  have hne : (poses ≠ [] ∨ edges ≠ [] ∨ gt.getD [] ≠ []) ↔
      poses.map List.length ++ ((gt.getD []).map List.length ++ edges.map fun e => e.rel.length) ≠ [] := by
    simp only [ne_eq, List.append_eq_nil_iff, List.map_eq_nil_iff]
    tauto
  rw [hne]
  simp only [hmem]
  unfold create
  cases hl : poses.map List.length ++ ((gt.getD []).map List.length ++ edges.map fun e => e.rel.length) with
  | nil => simp
  | cons n r =>
    dsimp only
    by_cases hr : r.all (· == n) = true
    · rw [if_pos hr]
      rw [List.all_eq_true] at hr
      by_cases hb : b = 0
      · simp [hb]
      · rw [if_neg hb]
        constructor
        · rintro ⟨rfl⟩
          refine ⟨by simp, hb, n, ?_, rfl⟩
          intro x hx
          rcases List.mem_cons.1 hx with rfl | hx
          · rfl
          · simpa using hr x hx
        · rintro ⟨-, -, m, hm, rfl⟩
          have : n = m := hm n (by simp)
          rw [this]
    · rw [if_neg hr]
      refine iff_of_false (by simp) ?_
      rintro ⟨-, -, m, hm, -⟩
      apply hr
      rw [List.all_eq_true]
      intro x hx
      have h1 := hm n (by simp)
      have h2 := hm x (List.mem_cons_of_mem _ hx)
      simp [h1, h2]

/-! ### Batches -/

/-- The elements of batch `k`. -/
def chunk {α : Type} (b k : ℕ) (l : List α) : List α := (l.drop (k * b)).take b

theorem slice_chunk {α : Type} {b k n : ℕ} (l : List α) (hl : l.length = n) (hk : k * b ≤ n) :
    slice ((k : ℤ) * b) (min ((k : ℤ) * b + b) n) l = chunk b k l := by
  unfold slice chunk
  have e1 : bound l.length ((k : ℤ) * b) = k * b := by
    unfold bound
    rw [if_neg (not_lt.2 (by positivity)), hl]
    have : ((k : ℤ) * b).toNat = k * b := by
      rw [← Int.natCast_mul]; exact Int.toNat_natCast _
    rw [this]; omega
  have e2 : bound l.length (min ((k : ℤ) * b + b) n) = min (k * b + b) n := by
    unfold bound
    have : min ((k : ℤ) * b + b) n = ((min (k * b + b) n : ℕ) : ℤ) := by push_cast; rfl
    rw [this, if_neg (not_lt.2 (by positivity)), Int.toNat_natCast, hl]
    omega
  rw [e1, e2, List.drop_take]
  have : min (k * b + b) n - k * b = min b (n - k * b) := by omega
  rw [this]
  conv_rhs => rw [← List.take_length (l := l.drop (k * b)), List.take_take]
  rw [List.length_drop, hl]

theorem chunks_flatten {α : Type} {b : ℕ} (l : List α) (m : ℕ) (hm : l.length ≤ m * b) :
    ((List.range m).map fun k => chunk b k l).flatten = l := by
  have : ∀ m, ((List.range m).map fun k => chunk b k l).flatten = l.take (m * b) := by
    intro m
    induction m with
    | zero => simp
    | succ m ih =>
      rw [List.range_succ, List.map_append, List.flatten_append, ih]
      simp only [List.map_cons, List.map_nil, List.flatten_cons, List.flatten_nil, List.append_nil, chunk]
      rw [Nat.succ_mul, List.take_add]
  rw [this, List.take_of_length_le hm]

/-- **The batches partition the dataset.** For a positive batch size and a dataset with poses there are
`⌈size / batch_size⌉` batches. Batch `k` below that number holds, for all poses, true poses and measurements, the
elements from `k * batch_size` on, at most `batch_size` and at least one, with the same ends and weights of the edges;
one after the other the batches hold all elements, each once. -/
theorem batches_partition {poses : List (List P)} {edges : List (Edge (List P) W)} {gt : Option (List (List P))}
    {b : ℕ} (hb : 0 < b) (hp : poses ≠ []) {d : Data P W} (hd : create poses edges gt b = .ok d) :
    ∃ m n : ℕ, d.numBatches = m ∧ d.size = n ∧ (∀ k : ℕ, k < m ↔ k * b < n) ∧
      (∀ k : ℕ, k < m → ∃ s : ℕ, s = min b (n - k * b) ∧ 0 < s ∧
        getBatch d k = .ok ⟨poses.map (chunk b k), edges.map fun e => ⟨e.i, e.j, chunk b k e.rel, e.weight⟩,
          gt.map fun g => g.map (chunk b k), b, s, 1⟩) ∧
      ∀ l : List P, (l ∈ poses ∨ (∃ e ∈ edges, l = e.rel) ∨ ∃ g, gt = some g ∧ l ∈ g) →
        ((List.range m).map fun k => chunk b k l).flatten = l := by
  obtain ⟨-, hb0, n, hs, rfl⟩ := (create_returns _ _ _ _ _).1 hd
  have hbz : (0 : ℤ) < b := by exact_mod_cast hb
  have hlen : ∀ l : List P, (l ∈ poses ∨ (∃ e ∈ edges, l = e.rel) ∨ ∃ g, gt = some g ∧ l ∈ g) → l.length = n := by
    rintro l (h | ⟨e, he, rfl⟩ | ⟨g, hg, h⟩)
    · exact hs.1 l h
    · exact hs.2.1 e he
    · exact hs.2.2 g hg l h
  -- the number of batches
  set q : ℤ := Int.fdiv ((n : ℤ) - 1) b with hq
  have hq1 : q * b ≤ n - 1 := by
    rw [hq, Int.fdiv_eq_ediv_of_nonneg _ hbz.le]; exact Int.ediv_mul_le _ hbz.ne'
  have hq2 : (n : ℤ) - 1 < (q + 1) * b := by
    rw [hq, Int.fdiv_eq_ediv_of_nonneg _ hbz.le]; exact Int.lt_ediv_add_one_mul_self _ hbz
  have hq0 : 0 ≤ q + 1 := by
    by_contra hneg
    have : (q + 1) * b ≤ -1 * b := by nlinarith
    nlinarith [Int.natCast_nonneg n]
  obtain ⟨m, hm⟩ : ∃ m : ℕ, q + 1 = m := ⟨(q + 1).toNat, (Int.toNat_of_nonneg hq0).symm⟩
  have hk : ∀ k : ℕ, k < m ↔ k * b < n := by
    intro k
    constructor
    · intro h
      have : (k : ℤ) ≤ q := by omega
      have h2 : (k : ℤ) * b ≤ q * b := by nlinarith
      have h3 : (k : ℤ) * b < n := by omega
      exact_mod_cast h3
    · intro h
      by_contra hc
      have : q + 1 ≤ k := by omega
      have h2 : (q + 1) * b ≤ k * b := by nlinarith
      have h3 : (k : ℤ) * b < n := by exact_mod_cast h
      omega
  refine ⟨m, n, hm, rfl, hk, fun k hkm => ⟨min b (n - k * b), rfl, ?_, ?_⟩, fun l hl => chunks_flatten l m ?_⟩
  · have := (hk k).1 hkm
    omega
  · have hkn := (hk k).1 hkm
    have e1 : ∀ l : List P, (l ∈ poses ∨ (∃ e ∈ edges, l = e.rel) ∨ ∃ g, gt = some g ∧ l ∈ g) →
        slice ((k : ℤ) * b) (min ((k : ℤ) * b + b) n) l = chunk b k l := fun l hl => slice_chunk l (hlen l hl) hkn.le
    have e2 : ∀ l : List P, (l ∈ poses ∨ (∃ e ∈ edges, l = e.rel) ∨ ∃ g, gt = some g ∧ l ∈ g) →
        (chunk b k l).length = min b (n - k * b) := by
      intro l hl
      rw [chunk, List.length_take, List.length_drop, hlen l hl]
    unfold getBatch
    rw [if_pos (by show (k : ℤ) < q + 1; omega)]
    dsimp only
    rw [if_neg hp]
    have p1 : poses.map (slice ((k : ℤ) * b) (min ((k : ℤ) * b + b) n)) = poses.map (chunk b k) :=
      List.map_congr_left fun l hl => e1 l (.inl hl)
    have p2 : (edges.map fun e => (⟨e.i, e.j, slice ((k : ℤ) * b) (min ((k : ℤ) * b + b) n) e.rel, e.weight⟩ : Edge (List P) W)) =
        edges.map fun e => ⟨e.i, e.j, chunk b k e.rel, e.weight⟩ :=
      List.map_congr_left fun e he => by rw [e1 _ (.inr (.inl ⟨e, he, rfl⟩))]
    have p3 : (gt.map fun g => g.map (slice ((k : ℤ) * b) (min ((k : ℤ) * b + b) n))) = gt.map fun g => g.map (chunk b k) := by
      cases gt with
      | none => rfl
      | some g =>
        simp only [Option.map_some]
        congr 1
        exact List.map_congr_left fun l hl => e1 l (.inr (.inr ⟨g, rfl, hl⟩))
    rw [p1, p2, p3, create_returns]
    refine ⟨.inl (by simpa using hp), hb0, min b (n - k * b), ⟨?_, ?_, ?_⟩, ?_⟩
    · intro p hp
      obtain ⟨l, hl, rfl⟩ := List.mem_map.1 hp
      exact e2 l (.inl hl)
    · intro e he
      obtain ⟨e', he', rfl⟩ := List.mem_map.1 he
      exact e2 _ (.inr (.inl ⟨e', he', rfl⟩))
    · intro g hg p hp
      obtain ⟨g', hg', rfl⟩ := Option.map_eq_some_iff.1 hg
      obtain ⟨l, hl, rfl⟩ := List.mem_map.1 hp
      exact e2 l (.inr (.inr ⟨g', hg', hl⟩))
    · have hz : Int.fdiv (((min b (n - k * b) : ℕ) : ℤ) - 1) b = 0 := by
        rw [Int.fdiv_eq_ediv_of_nonneg _ hbz.le]
        exact Int.ediv_eq_zero_of_lt (by omega) (by omega)
      rw [hz]
      rfl
  · rw [hlen l hl]
    have h2 : (n : ℤ) ≤ m * b := by rw [← hm]; omega
    exact_mod_cast h2

/-- **Negative indices pass the check**: the last batch cannot be had as batch `-1`, which is an empty dataset. -/
theorem batch_minus_one {poses : List (List P)} {edges : List (Edge (List P) W)} {gt : Option (List (List P))}
    {b : ℕ} (hb : 0 < b) (hp : poses ≠ []) {d : Data P W} (hd : create poses edges gt b = .ok d) :
    ∃ d', getBatch d (-1) = .ok d' ∧ d'.size = 0 ∧ ∀ p ∈ d'.poses, p = [] := by
  obtain ⟨m, n, hm, hn, -⟩ := batches_partition hb hp hd
  obtain ⟨-, hb0, n', hs, rfl⟩ := (create_returns _ _ _ _ _).1 hd
  have hz : ∀ l : List P, slice (-1 * (b : ℤ)) (min (-1 * (b : ℤ) + b) n') l = [] := by
    intro l
    unfold slice
    have : bound l.length (min (-1 * (b : ℤ) + b) n') = 0 := by
      have e : min (-1 * (b : ℤ) + b) n' = 0 := by omega
      rw [e]; simp [bound]
    rw [this]; simp
  have hc : ∃ d', getBatch ⟨poses, edges, gt, b, n', Int.fdiv (n' - 1) b + 1⟩ (-1) = .ok d' ∧
      d' = ⟨poses.map fun _ => [], edges.map fun e => ⟨e.i, e.j, [], e.weight⟩, gt.map fun g => g.map fun _ => [], b, (0 : ℕ),
        Int.fdiv ((0 : ℕ) - 1) b + 1⟩ := by
    refine ⟨_, ?_, rfl⟩
    unfold getBatch
    dsimp only at hm ⊢
    rw [if_pos (by omega), if_neg hp]
    simp only [funext hz]
    rw [create_returns]
    refine ⟨.inl (by simpa using hp), hb0, 0, ⟨?_, ?_, ?_⟩, rfl⟩
    · intro p hp
      obtain ⟨_, _, rfl⟩ := List.mem_map.1 hp
      rfl
    · intro e he
      obtain ⟨_, _, rfl⟩ := List.mem_map.1 he
      rfl
    · intro g hg p hp
      obtain ⟨_, _, rfl⟩ := Option.map_eq_some_iff.1 hg
      obtain ⟨_, _, rfl⟩ := List.mem_map.1 hp
      rfl
  obtain ⟨d', h, rfl⟩ := hc
  exact ⟨_, h, rfl, fun p hp => by obtain ⟨_, _, rfl⟩ := List.mem_map.1 hp; rfl⟩

/-- Five elements in batches of two: three batches. -/
example : ∃ d : Data ℕ Unit, create [[1, 2, 3, 4, 5], [6, 7, 8, 9, 10]] [] none 2 = .ok d ∧ d.numBatches = 3 := ⟨_, rfl, rfl⟩

/-! ### Histogram -/

/-- The norm of the error of an edge at element `r`: `‖log(pose_j⁻¹ pose_i rel)‖`. -/
noncomputable def errorAt {n : ℕ} {G : Type} (L : Ops n G) (one : G) (d : Data G W) (e : Edge (List G) W) (r : ℕ) : ℝ :=
  Real.sqrt (∑ c, L.log (L.compose (L.inverse ((d.poses.getD e.j.toNat []).getD r one))
    (L.compose ((d.poses.getD e.i.toNat []).getD r one) (e.rel.getD r one))) c ^ 2)

/-- The error is in tenth `k`; the last bucket takes all errors from 1 on. -/
def InBucket (k : ℕ) (x : ℝ) : Prop := if k < 10 then (k : ℝ) / 10 ≤ x ∧ x < (k + 1) / 10 else 1 ≤ x

theorem bucket_iff {x : ℝ} (hx : 0 ≤ x) (k : ℕ) (hk : k < 11) : bucket x = k ↔ InBucket k x := by
  unfold bucket InBucket
  have h10 : (0 : ℝ) ≤ 10 * x := by linarith
  by_cases h : k < 10
  · rw [if_pos h]
    have : min ⌊10 * x⌋₊ 10 = k ↔ ⌊10 * x⌋₊ = k := by omega
    rw [this, Nat.floor_eq_iff h10]
    constructor
    · rintro ⟨a, b⟩; constructor <;> linarith
    · rintro ⟨a, b⟩; constructor <;> linarith
  · rw [if_neg h]
    have hk10 : k = 10 := by omega
    subst hk10
    have : min ⌊10 * x⌋₊ 10 = 10 ↔ 10 ≤ ⌊10 * x⌋₊ := by omega
    rw [this, Nat.le_floor_iff h10]
    push_cast
    constructor <;> intro <;> linarith

theorem zipWith_range {α β γ : Type} (f : α → β → γ) (a : α) (b : β) {n : ℕ} {l : List α} {m : List β}
    (hl : l.length = n) (hm : m.length = n) :
    List.zipWith f l m = (List.range n).map fun r => f (l.getD r a) (m.getD r b) := by
  apply List.ext_getElem
  · simp [hl, hm]
  · intro k h1 h2
    have k1 : k < l.length := by simp at h1; omega
    have k2 : k < m.length := by simp at h1; omega
    simp [List.getD, List.getElem?_eq_getElem k1, List.getElem?_eq_getElem k2]

theorem sum_counts (l : List ℕ) (h : ∀ x ∈ l, x < 11) : ∑ k : Fin 11, l.count k.1 = l.length := by
  induction l with
  | nil => simp
  | cons a l ih =>
    have ha : a < 11 := h a (by simp)
    simp only [List.count_cons, Finset.sum_add_distrib, ih fun x hx => h x (List.mem_cons_of_mem _ hx), List.length_cons]
    congr 1
    rw [Finset.sum_eq_single ⟨a, ha⟩]
    · simp
    · intro b _ hb
      rw [if_neg]
      intro e
      exact hb (Fin.ext (show a = b.1 by simpa using e).symm)
    · simp

/-- **`histogram` counts every error once**: if the ends of all edges are positions of poses and there is at least one
edge and one element, bucket `k` counts the errors of all edges and elements in its range, and the counts add up to the
number of errors. -/
theorem histogram_counts {n m : ℕ} {G : Type} (L : Ops n G) (one : G) (d : Data G W) (hs : Sized d.poses d.edges d.gt m)
    (hm : 0 < m) (he : d.edges ≠ [])
    (hi : ∀ e ∈ d.edges, 0 ≤ e.i ∧ e.i < d.poses.length ∧ 0 ≤ e.j ∧ e.j < d.poses.length) :
    ∃ h, histogram L d = .ok h ∧ (∀ k, h k = ((d.edges.flatMap fun e => (List.range m).map fun r => errorAt L one d e r).countP
      fun x => open Classical in decide (InBucket k.1 x))) ∧ ∑ k, h k = d.edges.length * m := by
  have h1 : ∀ e ∈ d.edges, edgeErrors L d e = .ok ((List.range m).map fun r => errorAt L one d e r) := by
    intro e hee
    obtain ⟨a1, a2, a3, a4⟩ := hi e hee
    have get : ∀ i : ℤ, 0 ≤ i → i < d.poses.length → pyGet d.poses i = some (d.poses.getD i.toNat []) := by
      intro i h0 h1
      unfold pyGet
      have hlt : i.toNat < d.poses.length := by omega
      rw [if_pos h0]
      simp [List.getD, List.getElem?_eq_getElem hlt]
    have len : ∀ i : ℤ, 0 ≤ i → i < d.poses.length → (d.poses.getD i.toNat []).length = m := by
      intro i h0 h1
      have hlt : i.toNat < d.poses.length := by omega
      simp only [List.getD, List.getElem?_eq_getElem hlt, Option.getD_some]
      exact hs.1 _ (List.getElem_mem hlt)
    unfold edgeErrors
    rw [get _ a1 a2, get _ a3 a4]
    dsimp only
    have hz : (List.zipWith L.compose (d.poses.getD e.i.toNat []) e.rel).length = m := by
      rw [List.length_zipWith, len _ a1 a2, hs.2.1 e hee, min_self]
    rw [zipWith_range _ one one (len _ a3 a4) hz, zipWith_range L.compose one one (len _ a1 a2) (hs.2.1 e hee)]
    refine congrArg Except.ok (List.map_congr_left fun r hr => ?_)
    have hr' : r < m := List.mem_range.1 hr
    have : ((List.range m).map fun r => L.compose ((d.poses.getD e.i.toNat []).getD r one) (e.rel.getD r one)).getD r one =
        L.compose ((d.poses.getD e.i.toNat []).getD r one) (e.rel.getD r one) := by
      rw [List.getD, List.getElem?_map, List.getElem?_range hr']
      rfl
    rw [this]
    rfl
  have h2 : ∀ es : List (Edge (List G) W), (∀ e ∈ es, e ∈ d.edges) → bucketsOf L d es =
      .ok ((es.flatMap fun e => (List.range m).map fun r => errorAt L one d e r).map bucket) := by
    intro es
    induction es with
    | nil => intro _; rfl
    | cons e es ih =>
      intro hes
      simp only [bucketsOf, h1 e (hes e (by simp)), ih fun e h => hes e (by simp [h])]
      simp
  have hlen : (d.edges.flatMap fun e => (List.range m).map fun r => errorAt L one d e r).length = d.edges.length * m := by
    simp [List.length_flatMap]
  have hne : (d.edges.flatMap fun e => (List.range m).map fun r => errorAt L one d e r).map bucket ≠ [] := by
    intro h
    have := congrArg List.length h
    rw [List.length_map, hlen, List.length_nil] at this
    have := Nat.mul_pos (List.length_pos_iff.2 he) hm
    omega
  refine ⟨fun k => ((d.edges.flatMap fun e => (List.range m).map fun r => errorAt L one d e r).map bucket).count k.1, ?_,
    fun k => ?_, ?_⟩
  · unfold histogram
    rw [h2 d.edges fun _ h => h]
    dsimp only
    rw [if_neg hne]
  · classical
    dsimp only
    rw [List.count_eq_countP, List.countP_map]
    refine List.countP_congr fun x hx => ?_
    obtain ⟨e, he, hx⟩ := List.mem_flatMap.1 hx
    obtain ⟨r, hr, rfl⟩ := List.mem_map.1 hx
    simp only [Function.comp, beq_iff_eq, decide_eq_true_eq]
    exact bucket_iff (Real.sqrt_nonneg _) k.1 k.2
  · rw [sum_counts]
    · rw [List.length_map, hlen]
    · intro x hx
      obtain ⟨y, -, rfl⟩ := List.mem_map.1 hx
      unfold bucket
      omega

/-- A dataset without edges has no histogram: the call raises. -/
theorem histogram_no_edges {n : ℕ} {G : Type} (L : Ops n G) (d : Data G W) (he : d.edges = []) :
    histogram L d = .error .value := by
  simp [histogram, he, bucketsOf]

/-! ### Synthetic pose graphs -/

/-- The inlier flag and the noise of every edge, in order. -/
def noises {G : Type} (draws : List (Draw G)) : List (Bool × G) :=
  draws.flatMap fun d => (true, d.noise) :: d.closures.map fun c => (c.2.1, c.2.2)

/-- Loop closures of the `k`-th new pose, which has index `k + 1`, are to poses before its predecessor, each at most once
(`set(np.random.randint(0, n - 1, …))`). -/
def Closures {G : Type} (draws : List (Draw G)) : Prop :=
  ∀ (k : ℕ) (hk : k < draws.length), (∀ c ∈ draws[k].closures, c.1 < k) ∧ (draws[k].closures.map Prod.fst).Nodup

theorem getD_append_left {α : Type} (l m : List α) (i : ℕ) (a : α) (h : i < l.length) : (l ++ m).getD i a = l.getD i a := by
  simp only [List.getD, List.getElem?_append_left h]

/-- **The edges measure the truth up to their noise.** There is one true pose more than draws, the first is the identity; for
every edge `(i, j)` its measurement is the true motion from pose `i` to pose `j` composed with the noise drawn for
it, `i < j`, and the inlier flags are those drawn; consecutive poses are joined by an edge, and no two edges have the same
ends. -/
theorem synthetic_edges {n m : ℕ} {G : Type} {E : Embedding n m G} {L : Ops n G} (hL : E.Lawful L) {t r : ℝ} (ht : t ≠ 0)
    (hr : r ≠ 0) (draws : List (Draw G)) (hv : ∀ d ∈ draws, E.valid d.rel) (hc : Closures draws) (noise : List G)
    (hone : E.valid (L.exp 0)) :
    ∃ s, generate L (L.exp 0) t r draws noise = .ok (s, List.zipWith L.compose s.gt noise) ∧
      s.gt.length = draws.length + 1 ∧ (∀ g ∈ s.gt, E.valid g) ∧ s.gt.head? = some (L.exp 0) ∧
      List.Forall₂ (fun e f => e.1 < e.2.1 ∧ e.2.1 < s.gt.length ∧ e.2.2 = L.compose
        (L.between (s.gt.getD e.1 (L.exp 0)) (s.gt.getD e.2.1 (L.exp 0))) f.2) s.edges (noises draws) ∧
      s.inliers = (noises draws).map Prod.fst ∧
      (∀ j, 0 < j → j < s.gt.length → ∃ g, (j - 1, j, g) ∈ s.edges) ∧
      (s.edges.map fun e => (e.1, e.2.1)).Nodup := by
  set one := L.exp 0
  suffices H : ∀ draws : List (Draw G), (∀ d ∈ draws, E.valid d.rel) → Closures draws →
      ∀ s, draws.foldl (genStep L one) ⟨[one], [], []⟩ = s →
      s.gt.length = draws.length + 1 ∧ (∀ g ∈ s.gt, E.valid g) ∧ s.gt.head? = some one ∧
      List.Forall₂ (fun e f => e.1 < e.2.1 ∧ e.2.1 < s.gt.length ∧ e.2.2 = L.compose
        (L.between (s.gt.getD e.1 one) (s.gt.getD e.2.1 one)) f.2) s.edges (noises draws) ∧
      s.inliers = (noises draws).map Prod.fst ∧
      (∀ j, 0 < j → j < s.gt.length → ∃ g, (j - 1, j, g) ∈ s.edges) ∧
      (s.edges.map fun e => (e.1, e.2.1)).Nodup by
    refine ⟨_, ?_, H draws hv hc _ rfl⟩
    unfold generate
    rw [if_neg (by tauto)]
  clear hv hc draws
  intro draws
  induction draws using List.reverseRecOn with
  | nil =>
    rintro - - s rfl
    refine ⟨rfl, ?_, rfl, .nil, rfl, ?_, .nil⟩
    · intro g hg
      rw [List.mem_singleton.1 hg]
      exact hone
    · intro j h0 h1
      simp at h1
      omega
  | append_singleton draws d ih =>
    intro hv hc s' hs'
    rw [List.foldl_append] at hs'
    simp only [List.foldl_cons, List.foldl_nil] at hs'
    have hc' : Closures draws := by
      intro k hk
      have := hc k (by simp; omega)
      rwa [List.getElem_append_left hk] at this
    obtain ⟨i1, i2, i3, i4, i5, i6, i7⟩ := ih (fun d h => hv d (by simp [h])) hc' _ rfl
    set s := draws.foldl (genStep L one) ⟨[one], [], []⟩ with hs
    have hcl := hc draws.length (by simp)
    rw [List.getElem_concat_length rfl] at hcl
    have hclos : (if s.gt.length - 1 > 0 then d.closures else []) = d.closures := by
      split
      · rfl
      · rename_i h
        have h0 : draws.length = 0 := by omega
        cases hd : d.closures with
        | nil => rfl
        | cons c l => have := hcl.1 c (by rw [hd]; simp); omega
    have hne : s.gt ≠ [] := by intro h; rw [h] at i1; simp at i1
    have hlast : s.gt.getLastD one = s.gt.getD draws.length one := by
      have hlt : draws.length < s.gt.length := by omega
      rw [List.getLastD_eq_getLast?, List.getLast?_eq_getElem?, i1]
      simp [List.getD]
    have vlast : E.valid (s.gt.getD draws.length one) := by
      have hlt : draws.length < s.gt.length := by omega
      simp only [List.getD, List.getElem?_eq_getElem hlt, Option.getD_some]
      exact i2 _ (List.getElem_mem hlt)
    set pose := L.compose (s.gt.getLastD one) d.rel with hpose
    have vpose : E.valid pose := hL.compose_valid _ _ (by rw [hlast]; exact vlast) (hv d (by simp))
    have es : s' = ⟨s.gt ++ [pose], s.edges ++ (draws.length, draws.length + 1, L.compose d.rel d.noise) ::
        d.closures.map (fun c => (c.1, draws.length + 1,
          L.compose (L.compose (L.inverse ((s.gt ++ [pose]).getD c.1 one)) pose) c.2.2)),
        s.inliers ++ true :: d.closures.map fun c => c.2.1⟩ := by
      rw [← hs', genStep]
      rw [i1, Nat.add_sub_cancel] at hclos
      simp only [i1, Nat.add_sub_cancel, hclos]
      rfl
    have gnew : (s.gt ++ [pose]).getD (draws.length + 1) one = pose := by
      rw [List.getD, ← i1, List.getElem?_concat_length]
      rfl
    have glen : (s.gt ++ [pose]).length = draws.length + 2 := by rw [List.length_append, i1]; rfl
    rw [es]
    dsimp only
    refine ⟨?_, ?_, ?_, ?_, ?_, ?_, ?_⟩
    · rw [glen, List.length_append]; rfl
    · intro g hg
      rcases List.mem_append.1 hg with hg | hg
      · exact i2 g hg
      · rw [List.mem_singleton.1 hg]; exact vpose
    · rw [List.head?_append, i3]; rfl
    · have hno : noises (draws ++ [d]) = noises draws ++ (true, d.noise) :: d.closures.map fun c => (c.2.1, c.2.2) := by
        simp [noises]
      rw [hno]
      refine List.rel_append ?_ ?_
      · refine i4.imp ?_
        rintro ⟨i, j, g⟩ ⟨fl, nz⟩ ⟨a, b, c⟩
        refine ⟨a, by rw [glen]; omega, ?_⟩
        rw [c, getD_append_left _ _ _ _ (by omega), getD_append_left _ _ _ _ (by omega)]
      · refine .cons ⟨Nat.lt_succ_self _, by rw [glen]; exact Nat.lt_succ_self _, ?_⟩ ?_
        · rw [gnew, getD_append_left _ _ _ _ (by omega), hpose, hlast, hL.between_compose vlast]
        · rw [List.forall₂_map_left_iff, List.forall₂_map_right_iff, List.forall₂_same]
          intro c hcm
          refine ⟨?_, by rw [glen]; exact Nat.lt_succ_self _, ?_⟩
          · have := hcl.1 c hcm; simp only; omega
          · rw [gnew]
            rfl
    · simp [noises, i5]
    · intro j h0 h1
      rw [glen] at h1
      by_cases hj : j < s.gt.length
      · obtain ⟨g, hg⟩ := i6 j h0 hj
        exact ⟨g, List.mem_append_left _ hg⟩
      · have : j = draws.length + 1 := by omega
        subst this
        exact ⟨_, List.mem_append_right _ (List.mem_cons_self ..)⟩
    · rw [List.map_append, List.nodup_append]
      refine ⟨i7, ?_, ?_⟩
      · rw [List.map_cons, List.map_map, List.nodup_cons]
        constructor
        · intro h
          obtain ⟨c, hcm, e⟩ := List.mem_map.1 h
          have := hcl.1 c hcm
          have e1 := congrArg Prod.fst e
          simp only [Function.comp] at e1
          omega
        · have : (fun e => (e.1, e.2.1)) ∘ (fun c : ℕ × Bool × G => (c.1, draws.length + 1,
              L.compose (L.compose (L.inverse ((s.gt ++ [pose]).getD c.1 one)) pose) c.2.2)) =
              (fun k => (k, draws.length + 1)) ∘ Prod.fst := rfl
          rw [this, ← List.map_map]
          exact hcl.2.map fun a b h => congrArg Prod.fst h
      · intro p hp q hq e
        subst e
        obtain ⟨⟨i, j, g⟩, hm, rfl⟩ := List.mem_map.1 hp
        have hj : j < s.gt.length := by
          obtain ⟨k, hk, e⟩ := List.getElem_of_mem hm
          have := i4.get hk (by rw [← i4.length_eq]; exact hk)
          simp only [List.get_eq_getElem, e] at this
          exact this.2.1
        rw [List.map_cons, List.map_map] at hq
        rcases List.mem_cons.1 hq with e | hq
        · have := congrArg Prod.snd e; simp only at this; omega
        · obtain ⟨c, hcm, e⟩ := List.mem_map.1 hq
          have := congrArg Prod.snd e
          simp only [Function.comp] at this
          omega

/-- **The error of an edge at the true poses is its noise**, whatever the poses: with the measurement of `synthetic_edges`,
`local(gt_j, gt_i ∘ rel) = log(noise)`. -/
theorem synthetic_error {n m : ℕ} {G : Type} {E : Embedding n m G} {L : Ops n G} (hL : E.Lawful L) {gi gj noise : G}
    (hi : E.valid gi) (hj : E.valid gj) : L.local gj (L.compose gi (L.compose (L.between gi gj) noise)) = L.log noise := by
  rw [← hL.assoc, hL.compose_between hi, Ops.local, hL.between_compose hj]

/-- **Noise-free data cannot be generated**: zero noise raises. -/
theorem synthetic_zero_noise {n : ℕ} {G : Type} (L : Ops n G) (one : G) (t r : ℝ) (h : t = 0 ∨ r = 0) (draws : List (Draw G))
    (noise : List G) : generate L one t r draws noise = .error .zeroDivision := by
  unfold generate
  rw [if_pos h]

/-- Three new poses, the last with a loop closure to the first pose. -/
example {G : Type} (g : G) : Closures [⟨g, g, []⟩, ⟨g, g, []⟩, ⟨g, g, [(0, false, g)]⟩] := by
  intro k hk
  match k, hk with
  | 0, _ => simp
  | 1, _ => simp
  | 2, _ => simp

end Verif.PoseGraph
