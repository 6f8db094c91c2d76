import Verif.PoseGraph.File
import Verif.Geometry.SpatialJac
import Mathlib.Data.List.Sort
import Mathlib.Data.List.Forall2

/-!
# Pose graphs in g2o files: properties (C97)
-/

namespace Verif.PoseGraph
open Verif.Geometry

/-! ### Specification -/

/-- The number of a token. -/
inductive Num : Tok → ℝ → Prop
  | int (z : ℤ) : Num (.int z) z
  | real (x : ℝ) : Num (.real x) x

/-- The first word of a line. -/
def tag : List Tok → Option String
  | .word s :: _ => some s
  | _ => none

/-- The pose with translation `x, y, z` and the rotation of the quaternion `a i + b j + c k + w`. -/
def IsPose (l : List Tok) (g : SE3) : Prop :=
  ∃ x y z a b c w : ℝ, List.Forall₂ Num l [x, y, z, a, b, c, w] ∧ ![w, a, b, c] ≠ 0 ∧
    g.t = ![x, y, z] ∧ g.R = SO3.ofQuaternion ![w, a, b, c]

/-- The numbers of a line are the upper triangle of the information matrix, row by row; `w` is the square root of
its diagonal. -/
def IsWeight (l : List Tok) (w : Fin 6 → ℝ) : Prop :=
  ∃ v : List ℝ, List.Forall₂ Num l v ∧ ∃ h : 21 ≤ v.length, (∀ k, 0 ≤ w k) ∧
    w 0 ^ 2 = v[0] ∧ w 1 ^ 2 = v[6] ∧ w 2 ^ 2 = v[11] ∧ w 3 ^ 2 = v[15] ∧ w 4 ^ 2 = v[18] ∧ w 5 ^ 2 = v[20]

/-- `EDGE_SE3:QUAT i j x y z qx qy qz qw` and at least 21 more numbers. -/
def IsEdge (l : List Tok) (e : Edge SE3 (Fin 6 → ℝ)) : Prop :=
  ∃ p v, l = .word "EDGE_SE3:QUAT" :: .int e.i :: .int e.j :: (p ++ v) ∧ IsPose p e.rel ∧ IsWeight v e.weight

/-- `VERTEX_SE3:QUAT i x y z qx qy qz qw`. -/
def IsVertex (l : List Tok) (i : ℤ) (g : SE3) : Prop :=
  ∃ p, l = .word "VERTEX_SE3:QUAT" :: .int i :: p ∧ IsPose p g

/-- The line mentions the vertex `i`. -/
def Mentions (l : List Tok) (i : ℤ) : Prop :=
  (∃ g, IsVertex l i g) ∨ ∃ e, IsEdge l e ∧ (e.i = i ∨ e.j = i)

/-! ### Lines -/

theorem bind_ok {α β : Type} {r : Except Exc α} {f : α → Except Exc β} {b : β} :
    bind r f = .ok b ↔ ∃ a, r = .ok a ∧ f a = .ok b := by
  cases r with
  | ok a => exact ⟨fun h => ⟨a, rfl, h⟩, by rintro ⟨_, ⟨rfl⟩, h⟩; exact h⟩
  | error e => exact iff_of_false (fun h => by cases h) (by rintro ⟨_, h, _⟩; cases h)

theorem floats_ok {l : List Tok} {x : List ℝ} : floats l = .ok x ↔ List.Forall₂ Num l x := by
  induction l generalizing x with
  | nil =>
    rw [List.forall₂_nil_left_iff]
    exact ⟨fun h => (Except.ok.inj h).symm, fun h => by rw [h]; rfl⟩
  | cons t l ih =>
    rw [List.forall₂_cons_left_iff]
    cases t with
    | word s =>
      refine iff_of_false (fun h => by cases h) ?_
      rintro ⟨_, _, h, _⟩
      cases h
    | int z =>
      simp only [floats, bind_ok, ih]
      constructor
      · rintro ⟨a, h, ⟨rfl⟩⟩
        exact ⟨_, _, .int z, h, rfl⟩
      · rintro ⟨_, _, ⟨⟩, h, rfl⟩
        exact ⟨_, h, rfl⟩
    | real z =>
      simp only [floats, bind_ok, ih]
      constructor
      · rintro ⟨a, h, ⟨rfl⟩⟩
        exact ⟨_, _, .real z, h, rfl⟩
      · rintro ⟨_, _, ⟨⟩, h, rfl⟩
        exact ⟨_, h, rfl⟩

theorem ofQuaternion_scale {w a b c n : ℝ} (hn : n = Real.sqrt (a ^ 2 + b ^ 2 + c ^ 2 + w ^ 2)) (h0 : n ≠ 0) :
    SO3.ofQuaternion ![w / n, a / n, b / n, c / n] = SO3.ofQuaternion ![w, a, b, c] := by
  have hsq : n ^ 2 = a ^ 2 + b ^ 2 + c ^ 2 + w ^ 2 := by
    rw [hn, Real.sq_sqrt (by positivity)]
  have h1 : SO3.quatNorm ![w / n, a / n, b / n, c / n] = 1 := by
    have : (w / n) ^ 2 + (a / n) ^ 2 + (b / n) ^ 2 + (c / n) ^ 2 = 1 := by
      field_simp
      linarith
    simp only [SO3.quatNorm]
    show Real.sqrt ((w / n) ^ 2 + (a / n) ^ 2 + (b / n) ^ 2 + (c / n) ^ 2) = 1
    rw [this, Real.sqrt_one]
  have h2 : SO3.quatNorm ![w, a, b, c] = n := by
    rw [hn]
    show Real.sqrt (w ^ 2 + a ^ 2 + b ^ 2 + c ^ 2) = _
    congr 1; ring
  simp only [SO3.ofQuaternion, h1, h2]
  show SO3.quatMatrix (w / n / 1) (a / n / 1) (b / n / 1) (c / n / 1) = SO3.quatMatrix (w / n) (a / n) (b / n) (c / n)
  simp only [div_one]

theorem poseOf_ok {x : List ℝ} {g : SE3} : poseOf x = .ok g ↔
    ∃ x' y z a b c w : ℝ, x = [x', y, z, a, b, c, w] ∧ ![w, a, b, c] ≠ 0 ∧ g.t = ![x', y, z] ∧
      g.R = SO3.ofQuaternion ![w, a, b, c] := by
  have nz : ∀ w a b c : ℝ, Real.sqrt (a ^ 2 + b ^ 2 + c ^ 2 + w ^ 2) = 0 ↔ ![w, a, b, c] = 0 := by
    intro w a b c
    rw [Real.sqrt_eq_zero (by positivity)]
    constructor
    · intro h
      have ha : a = 0 := by nlinarith [sq_nonneg a, sq_nonneg b, sq_nonneg c, sq_nonneg w]
      have hb : b = 0 := by nlinarith [sq_nonneg a, sq_nonneg b, sq_nonneg c, sq_nonneg w]
      have hc : c = 0 := by nlinarith [sq_nonneg a, sq_nonneg b, sq_nonneg c, sq_nonneg w]
      have hw : w = 0 := by nlinarith [sq_nonneg a, sq_nonneg b, sq_nonneg c, sq_nonneg w]
      subst ha hb hc hw
      funext i; fin_cases i <;> rfl
    · intro h
      have hw : w = 0 := congrFun h 0
      have ha : a = 0 := congrFun h 1
      have hb : b = 0 := congrFun h 2
      have hc : c = 0 := congrFun h 3
      subst ha hb hc hw
      norm_num
  constructor
  · intro h
    unfold poseOf at h
    split at h
    · rename_i x' y z a b c w
      dsimp only at h
      split at h
      · cases h
      · rename_i hn
        cases h
        refine ⟨x', y, z, a, b, c, w, rfl, fun h0 => hn ((nz w a b c).2 h0), rfl, ?_⟩
        exact ofQuaternion_scale rfl hn
    · cases h
  · rintro ⟨x', y, z, a, b, c, w, rfl, h0, ht, hR⟩
    have hn : Real.sqrt (a ^ 2 + b ^ 2 + c ^ 2 + w ^ 2) ≠ 0 := fun h => h0 ((nz w a b c).1 h)
    show (if Real.sqrt (a ^ 2 + b ^ 2 + c ^ 2 + w ^ 2) = 0 then Except.error Exc.nan else _) = _
    rw [if_neg hn]
    refine congrArg Except.ok (SE3.ext ?_ ?_)
    · rw [hR]; exact ofQuaternion_scale rfl hn
    · rw [ht]; rfl

theorem weightOf_ok {v : List ℝ} {w : Fin 6 → ℝ} : weightOf v = .ok w ↔ ∃ h : 21 ≤ v.length, (∀ k, 0 ≤ w k) ∧
    w 0 ^ 2 = v[0] ∧ w 1 ^ 2 = v[6] ∧ w 2 ^ 2 = v[11] ∧ w 3 ^ 2 = v[15] ∧ w 4 ^ 2 = v[18] ∧ w 5 ^ 2 = v[20] := by
  by_cases hv : 21 ≤ v.length
  · have e : weightOf v = if (0 : ℝ) ≤ v[0] ∧ (0 : ℝ) ≤ v[6] ∧ (0 : ℝ) ≤ v[11] ∧
        (0 : ℝ) ≤ v[15] ∧ (0 : ℝ) ≤ v[18] ∧ (0 : ℝ) ≤ v[20] then
        .ok ![Real.sqrt v[0], Real.sqrt v[6], Real.sqrt v[11], Real.sqrt v[15], Real.sqrt v[18], Real.sqrt v[20]]
        else .error .nan := by
      unfold weightOf
      rw [List.getElem?_eq_getElem (by omega : 0 < v.length), List.getElem?_eq_getElem (by omega : 6 < v.length),
        List.getElem?_eq_getElem (by omega : 11 < v.length), List.getElem?_eq_getElem (by omega : 15 < v.length),
        List.getElem?_eq_getElem (by omega : 18 < v.length), List.getElem?_eq_getElem (by omega : 20 < v.length)]
    rw [e]
    constructor
    · intro h
      split at h
      · rename_i hp
        obtain ⟨p0, p1, p2, p3, p4, p5⟩ := hp
        cases h
        refine ⟨hv, fun k => ?_, Real.sq_sqrt p0, Real.sq_sqrt p1, Real.sq_sqrt p2, Real.sq_sqrt p3, Real.sq_sqrt p4,
          Real.sq_sqrt p5⟩
        fin_cases k <;> exact Real.sqrt_nonneg _
      · cases h
    · rintro ⟨_, hp, h0, h1, h2, h3, h4, h5⟩
      rw [← h0, ← h1, ← h2, ← h3, ← h4, ← h5, if_pos ⟨by positivity, by positivity, by positivity, by positivity,
        by positivity, by positivity⟩]
      refine congrArg Except.ok ?_
      funext k
      fin_cases k <;> exact Real.sqrt_sq (hp _)
  · refine iff_of_false ?_ fun ⟨h, _⟩ => hv h
    unfold weightOf
    have : v[20]? = none := List.getElem?_eq_none (by omega)
    rw [this]
    intro h
    split at h
    · rename_i h'; cases h'
    · cases h

theorem intAt_ok {l : List Tok} {k : ℕ} {z : ℤ} : intAt l k = .ok z ↔ l[k]? = some (.int z) := by
  unfold intAt
  rcases l[k]? with _ | t
  · simp
  · cases t <;> simp

theorem isPose_iff {p : List Tok} {g : SE3} : IsPose p g ↔ ∃ x, List.Forall₂ Num p x ∧ poseOf x = .ok g := by
  constructor
  · rintro ⟨x, y, z, a, b, c, w, hn, h0, ht, hR⟩
    exact ⟨_, hn, poseOf_ok.2 ⟨x, y, z, a, b, c, w, rfl, h0, ht, hR⟩⟩
  · rintro ⟨_, hn, hp⟩
    obtain ⟨x, y, z, a, b, c, w, rfl, h0, ht, hR⟩ := poseOf_ok.1 hp
    exact ⟨x, y, z, a, b, c, w, hn, h0, ht, hR⟩

theorem isPose_length {p : List Tok} {g : SE3} (h : IsPose p g) : p.length = 7 := by
  obtain ⟨x, y, z, a, b, c, w, hn, -⟩ := h
  exact hn.length_eq

theorem isWeight_iff {p : List Tok} {w : Fin 6 → ℝ} : IsWeight p w ↔ ∃ x, List.Forall₂ Num p x ∧ weightOf x = .ok w := by
  simp only [weightOf_ok]
  rfl

/-- What one line does. -/
theorem line3_ok {s s' : Acc SE3 (Fin 6 → ℝ)} {l : List Tok} : line3 s l = .ok s' ↔
    (∃ e, IsEdge l e ∧ s' = ⟨max (max s.num e.i) e.j, s.verts, s.edges ++ [e]⟩) ∨
    (∃ i g, IsVertex l i g ∧ s' = ⟨max s.num i, setVert i g s.verts, s.edges⟩) ∨
    (l ≠ [] ∧ tag l ≠ some "EDGE_SE3:QUAT" ∧ tag l ≠ some "VERTEX_SE3:QUAT" ∧ s' = s) := by
  unfold line3
  split
  · refine iff_of_false (by simp) ?_
    rintro (⟨e, ⟨p, v, h, -⟩, -⟩ | ⟨i, g, ⟨p, h, -⟩, -⟩ | ⟨h, -⟩)
    · cases h
    · cases h
    · exact h rfl
  · rename_i r
    simp only [bind_ok, intAt_ok, floats_ok]
    constructor
    · rintro ⟨i, hi, j, hj, x, hx, g, hg, v, hv, w, hw, ⟨rfl⟩⟩
      refine .inl ⟨⟨i, j, g, w⟩, ⟨(Tok.word "EDGE_SE3:QUAT" :: r).drop 3 |>.take 7, (Tok.word "EDGE_SE3:QUAT" :: r).drop 10, ?_,
        isPose_iff.2 ⟨x, hx, hg⟩, isWeight_iff.2 ⟨v, hv, hw⟩⟩, rfl⟩
      match r, hi, hj with
      | a :: b :: r, hi, hj =>
        simp only [List.getElem?_cons_succ, List.getElem?_cons_zero, Option.some.injEq] at hi hj
        subst hi hj
        simp
    · rintro (⟨e, ⟨p, v, h, hp, hw⟩, rfl⟩ | ⟨i, g, ⟨p, h, -⟩, -⟩ | ⟨-, h, -⟩)
      · have hl := isPose_length hp
        obtain ⟨x, hx, hg⟩ := isPose_iff.1 hp
        obtain ⟨y, hy, hw⟩ := isWeight_iff.1 hw
        rw [h]
        have e1 : List.take 7 (p ++ v) = p := by rw [← hl, List.take_left]
        have e2 : List.drop 7 (p ++ v) = v := by rw [← hl, List.drop_left]
        refine ⟨e.i, by simp, e.j, by simp, x, ?_, e.rel, hg, y, ?_, e.weight, hw, rfl⟩
        · simpa [e1] using hx
        · simpa [e2] using hy
      · simp at h
      · exact absurd rfl h
  · rename_i r
    simp only [bind_ok, intAt_ok, floats_ok]
    constructor
    · rintro ⟨i, hi, x, hx, g, hg, ⟨rfl⟩⟩
      refine .inr (.inl ⟨i, g, ⟨(Tok.word "VERTEX_SE3:QUAT" :: r).drop 2, ?_, isPose_iff.2 ⟨x, hx, hg⟩⟩, rfl⟩)
      match r, hi with
      | a :: r, hi =>
        simp only [List.getElem?_cons_succ, List.getElem?_cons_zero, Option.some.injEq] at hi
        subst hi
        rfl
    · rintro (⟨e, ⟨p, v, h, -⟩, -⟩ | ⟨i, g, ⟨p, h, hp⟩, rfl⟩ | ⟨-, -, h, -⟩)
      · simp at h
      · obtain ⟨x, hx, hg⟩ := isPose_iff.1 hp
        rw [h]
        exact ⟨i, by simp, x, by simpa using hx, g, hg, rfl⟩
      · exact absurd rfl h
  · rename_i h0 h1 h2
    constructor
    · rintro ⟨rfl⟩
      refine .inr (.inr ⟨h0, ?_, ?_, rfl⟩)
      · intro h
        match l, h with
        | .word a :: r, h => cases h; exact h1 r rfl
      · intro h
        match l, h with
        | .word a :: r, h => cases h; exact h2 r rfl
    · rintro (⟨e, ⟨p, v, h, -⟩, -⟩ | ⟨i, g, ⟨p, h, hp⟩, -⟩ | ⟨-, -, -, rfl⟩)
      · exact absurd h (h1 _)
      · exact absurd h (h2 _)
      · rfl

theorem IsEdge.tag {l : List Tok} {e : Edge SE3 (Fin 6 → ℝ)} (h : IsEdge l e) : tag l = some "EDGE_SE3:QUAT" := by
  obtain ⟨p, v, rfl, -⟩ := h; rfl

theorem IsVertex.tag {l : List Tok} {i : ℤ} {g : SE3} (h : IsVertex l i g) : PoseGraph.tag l = some "VERTEX_SE3:QUAT" := by
  obtain ⟨p, rfl, -⟩ := h; rfl

/-- A file is read exactly if no line is empty and all lines of the two kinds are complete; lines of other kinds are
skipped. -/
theorem read_returns (file : List (List Tok)) : (∃ a, read3 file = .ok a) ↔
    ∀ l ∈ file, l ≠ [] ∧ (tag l = some "EDGE_SE3:QUAT" → ∃ e, IsEdge l e) ∧
      (tag l = some "VERTEX_SE3:QUAT" → ∃ i g, IsVertex l i g) := by
  have key : ∀ s, (∃ a, loop line3 s file = .ok a) ↔
      ∀ l ∈ file, l ≠ [] ∧ (tag l = some "EDGE_SE3:QUAT" → ∃ e, IsEdge l e) ∧
      (tag l = some "VERTEX_SE3:QUAT" → ∃ i g, IsVertex l i g) := by
    induction file with
    | nil => exact fun s => iff_of_true ⟨s, rfl⟩ (by simp)
    | cons l ls ih =>
      intro s
      simp only [loop, bind_ok, List.forall_mem_cons]
      constructor
      · rintro ⟨a, s', h1, h2⟩
        refine ⟨?_, (ih s').1 ⟨a, h2⟩⟩
        rcases line3_ok.1 h1 with ⟨e, he, -⟩ | ⟨i, g, hv, -⟩ | ⟨h0, h1, h2, -⟩
        · refine ⟨?_, fun _ => ⟨e, he⟩, fun h => ?_⟩
          · rintro rfl; cases he.tag
          · rw [he.tag] at h; simp at h
        · refine ⟨?_, fun h => ?_, fun _ => ⟨i, g, hv⟩⟩
          · rintro rfl; cases hv.tag
          · rw [hv.tag] at h; simp at h
        · exact ⟨h0, fun h => absurd h h1, fun h => absurd h h2⟩
      · rintro ⟨⟨h0, h1, h2⟩, hr⟩
        have : ∃ s', line3 s l = .ok s' := by
          by_cases he : tag l = some "EDGE_SE3:QUAT"
          · obtain ⟨e, h⟩ := h1 he
            exact ⟨_, line3_ok.2 (.inl ⟨e, h, rfl⟩)⟩
          · by_cases hv : tag l = some "VERTEX_SE3:QUAT"
            · obtain ⟨i, g, h⟩ := h2 hv
              exact ⟨_, line3_ok.2 (.inr (.inl ⟨i, g, h, rfl⟩))⟩
            · exact ⟨s, line3_ok.2 (.inr (.inr ⟨h0, he, hv, rfl⟩))⟩
        obtain ⟨s', hs⟩ := this
        obtain ⟨a, ha⟩ := (ih s').2 hr
        exact ⟨a, s', hs, ha⟩
  rw [← key ⟨0, [], []⟩]
  unfold read3
  simp only [bind_ok]
  exact ⟨fun ⟨a, b, h, _⟩ => ⟨b, h⟩, fun ⟨b, h⟩ => ⟨_, b, h, rfl⟩⟩

/-- A file with an empty line is never read. -/
theorem read_blank_raises (pre post : List (List Tok)) : ∀ a, read3 (pre ++ [] :: post) ≠ .ok a :=
  fun a h => ((read_returns _).1 ⟨a, h⟩ [] (by simp)).1 rfl

/-! ### The result -/

theorem setVert_mem {P : Type} (i : ℤ) (g : P) (l : List (ℤ × P)) (hs : (l.map Prod.fst).Pairwise (· < ·)) :
    ((setVert i g l).map Prod.fst).Pairwise (· < ·) ∧
    ∀ k h, (k, h) ∈ setVert i g l ↔ (k = i ∧ h = g) ∨ (k ≠ i ∧ (k, h) ∈ l) := by
  induction l with
  | nil =>
    refine ⟨by simp [setVert], fun k h => ?_⟩
    simp [setVert]
  | cons p l ih =>
    obtain ⟨k0, h0⟩ := p
    rw [List.map_cons, List.pairwise_cons] at hs
    obtain ⟨i1, i2⟩ := ih hs.2
    have hlt : ∀ k h, (k, h) ∈ l → k0 < k := fun k h hm => hs.1 k (List.mem_map.2 ⟨(k, h), hm, rfl⟩)
    unfold setVert
    split
    · rename_i hik
      constructor
      · rw [List.map_cons, List.pairwise_cons, List.map_cons, List.pairwise_cons]
        refine ⟨fun a ha => ?_, hs⟩
        rcases List.mem_cons.1 ha with rfl | ha
        · exact hik
        · exact hik.trans (hs.1 a ha)
      · intro k h
        rw [List.mem_cons]
        constructor
        · rintro (e | hm)
          · cases e; exact .inl ⟨rfl, rfl⟩
          · refine .inr ⟨?_, hm⟩
            rcases List.mem_cons.1 hm with e | hm
            · cases e; exact hik.ne'
            · exact (hik.trans (hlt _ _ hm)).ne'
        · rintro (⟨rfl, rfl⟩ | ⟨_, hm⟩)
          · exact .inl rfl
          · exact .inr hm
    · rename_i hik
      split
      · rename_i e
        subst e
        refine ⟨by rw [List.map_cons, List.pairwise_cons]; exact hs, fun k h => ?_⟩
        rw [List.mem_cons, List.mem_cons]
        constructor
        · rintro (e | hm)
          · cases e; exact .inl ⟨rfl, rfl⟩
          · exact .inr ⟨(hlt _ _ hm).ne', .inr hm⟩
        · rintro (⟨rfl, rfl⟩ | ⟨hk, e | hm⟩)
          · exact .inl rfl
          · cases e; exact absurd rfl hk
          · exact .inr hm
      · rename_i hne
        have hki : k0 < i := by omega
        constructor
        · rw [List.map_cons, List.pairwise_cons]
          refine ⟨fun a ha => ?_, i1⟩
          obtain ⟨⟨k, h⟩, hm, rfl⟩ := List.mem_map.1 ha
          rcases (i2 k h).1 hm with ⟨rfl, -⟩ | ⟨-, hm⟩
          · exact hki
          · exact hlt _ _ hm
        · intro k h
          rw [List.mem_cons, i2, List.mem_cons]
          constructor
          · rintro (e | h | ⟨a, b⟩)
            · cases e; exact .inr ⟨hki.ne, .inl rfl⟩
            · exact .inl h
            · exact .inr ⟨a, .inr b⟩
          · rintro (h | ⟨a, e | b⟩)
            · exact .inr (.inl h)
            · exact .inl e
            · exact .inr (.inr ⟨a, b⟩)

/-- **What is read.** The edges are those of the lines of that kind, in order; the vertices are sorted by id, one for
each id that has a line, with the pose of the last such line; the number of vertices is one more than the largest id
that is mentioned (or 1). -/
theorem read_result {file : List (List Tok)} {a : Acc SE3 (Fin 6 → ℝ)} (h : read3 file = .ok a) :
    List.Forall₂ IsEdge (file.filter fun l => tag l == some "EDGE_SE3:QUAT") a.edges ∧
    (a.verts.map Prod.fst).Pairwise (· < ·) ∧
    (∀ i g, (i, g) ∈ a.verts ↔ ∃ pre l post, file = pre ++ l :: post ∧ IsVertex l i g ∧
      ∀ l' ∈ post, ∀ g', ¬ IsVertex l' i g') ∧
    (∀ l ∈ file, ∀ i, Mentions l i → i < a.num) ∧ 1 ≤ a.num ∧
    (a.num = 1 ∨ ∃ l ∈ file, Mentions l (a.num - 1)) := by
  have uniq : ∀ {l i g i' g'}, IsVertex l i g → IsVertex l i' g' → i = i' ∧ g = g' := by
    rintro l i g i' g' ⟨p, rfl, hp⟩ ⟨p', h, hp'⟩
    injection h with _ h
    injection h with h1 h2
    subst h2
    refine ⟨by injection h1, ?_⟩
    obtain ⟨x, hx, hg⟩ := isPose_iff.1 hp
    obtain ⟨x', hx', hg'⟩ := isPose_iff.1 hp'
    have := (floats_ok.2 hx).symm.trans (floats_ok.2 hx')
    cases this
    exact Except.ok.inj (hg.symm.trans hg')
  have ev : ∀ {l e i g}, IsEdge l e → ¬ IsVertex l i g := fun he hv => by have := he.tag.symm.trans hv.tag; simp at this
  have uniqE : ∀ {l e e'}, IsEdge l e → IsEdge l e' → e.i = e'.i ∧ e.j = e'.j := by
    rintro l e e' ⟨p, v, rfl, -⟩ ⟨p', v', h, -⟩
    injection h with _ h
    injection h with h1 h2
    injection h2 with h2 _
    exact ⟨by injection h1, by injection h2⟩
  have key : ∀ s, (s.verts.map Prod.fst).Pairwise (· < ·) → ∀ a, loop line3 s file = .ok a →
      (∃ es, a.edges = s.edges ++ es ∧
        List.Forall₂ IsEdge (file.filter fun l => tag l == some "EDGE_SE3:QUAT") es) ∧
      (a.verts.map Prod.fst).Pairwise (· < ·) ∧
      (∀ i g, (i, g) ∈ a.verts ↔ (∃ pre l post, file = pre ++ l :: post ∧ IsVertex l i g ∧
        ∀ l' ∈ post, ∀ g', ¬ IsVertex l' i g') ∨ ((i, g) ∈ s.verts ∧ ∀ l' ∈ file, ∀ g', ¬ IsVertex l' i g')) ∧
      (∀ l ∈ file, ∀ i, Mentions l i → i ≤ a.num) ∧ s.num ≤ a.num ∧
      (a.num = s.num ∨ ∃ l ∈ file, Mentions l a.num) := by
    clear h
    induction file with
    | nil =>
      rintro s hs a ⟨rfl⟩
      refine ⟨⟨[], by simp, by simp⟩, hs, fun i g => ?_, by simp, le_rfl, .inl rfl⟩
      simp
    | cons l ls ih =>
      intro s hs a ha
      obtain ⟨s', h1, h2⟩ := bind_ok.1 ha
      -- positions in the longer file
      have pos : ∀ i g, (∃ pre l₁ post, l :: ls = pre ++ l₁ :: post ∧ IsVertex l₁ i g ∧
          ∀ l' ∈ post, ∀ g', ¬ IsVertex l' i g') ↔
          (∃ pre l₁ post, ls = pre ++ l₁ :: post ∧ IsVertex l₁ i g ∧ ∀ l' ∈ post, ∀ g', ¬ IsVertex l' i g') ∨
          (IsVertex l i g ∧ ∀ l' ∈ ls, ∀ g', ¬ IsVertex l' i g') := by
        intro i g
        constructor
        · rintro ⟨pre, l₁, post, e, hv, hp⟩
          cases pre with
          | nil => cases e; exact .inr ⟨hv, hp⟩
          | cons b pre => cases e; exact .inl ⟨pre, l₁, post, rfl, hv, hp⟩
        · rintro (⟨pre, l₁, post, rfl, hv, hp⟩ | ⟨hv, hp⟩)
          · exact ⟨l :: pre, l₁, post, rfl, hv, hp⟩
          · exact ⟨[], l, ls, rfl, hv, hp⟩
      rcases line3_ok.1 h1 with ⟨e, he, rfl⟩ | ⟨i0, g0, hv, rfl⟩ | ⟨h0, ht1, ht2, rfl⟩
      · obtain ⟨⟨es, e1, f1⟩, hsort, hmem, hle, hge, hor⟩ := ih ⟨max (max s.num e.i) e.j, s.verts, s.edges ++ [e]⟩ hs a h2
        dsimp only at e1 hmem hge hor
        have m1 : e.i ≤ a.num := (le_max_right _ _).trans ((le_max_left _ _).trans hge)
        have m2 : e.j ≤ a.num := (le_max_right _ _).trans hge
        refine ⟨⟨e :: es, by rw [e1]; simp, ?_⟩, hsort, fun i g => ?_, ?_, ?_, ?_⟩
        · rw [List.filter_cons, if_pos (by rw [he.tag]; rfl)]
          exact .cons he f1
        · rw [hmem, pos]
          constructor
          · rintro (h | ⟨h, hn⟩)
            · exact .inl (.inl h)
            · refine .inr ⟨h, fun l' hl' g' => ?_⟩
              rcases List.mem_cons.1 hl' with rfl | hl'
              · exact ev he
              · exact hn l' hl' g'
          · rintro ((h | ⟨h, -⟩) | ⟨h, hn⟩)
            · exact .inl h
            · exact absurd h (ev he)
            · exact .inr ⟨h, fun l' hl' => hn l' (List.mem_cons_of_mem _ hl')⟩
        · intro l' hl' i hm
          rcases List.mem_cons.1 hl' with rfl | hl'
          · rcases hm with ⟨g, hg⟩ | ⟨e', he', hi⟩
            · exact absurd hg (ev he)
            · obtain ⟨q1, q2⟩ := uniqE he he'
              rcases hi with rfl | rfl
              · rw [← q1]; exact m1
              · rw [← q2]; exact m2
          · exact hle l' hl' i hm
        · exact (le_max_left _ _).trans ((le_max_left _ _).trans hge)
        · rcases hor with h | ⟨l', hl', hm⟩
          · rw [h]
            rcases max_choice (max s.num e.i) e.j with q | q
            · rw [q]
              rcases max_choice s.num e.i with q | q
              · exact .inl q
              · rw [q]
                exact .inr ⟨l, by simp, .inr ⟨e, he, .inl rfl⟩⟩
            · rw [q]
              exact .inr ⟨l, by simp, .inr ⟨e, he, .inr rfl⟩⟩
          · exact .inr ⟨l', List.mem_cons_of_mem _ hl', hm⟩
      · obtain ⟨sv1, sv2⟩ := setVert_mem i0 g0 s.verts hs
        obtain ⟨⟨es, e1, f1⟩, hsort, hmem, hle, hge, hor⟩ := ih _ sv1 a h2
        dsimp only at e1 hmem hge hor
        refine ⟨⟨es, e1, ?_⟩, hsort, fun i g => ?_, ?_, (le_max_left _ _).trans hge, ?_⟩
        · rw [List.filter_cons, if_neg (by rw [hv.tag]; decide)]
          exact f1
        · rw [hmem, pos, sv2]
          constructor
          · rintro (h | ⟨⟨rfl, rfl⟩ | ⟨hne, h⟩, hn⟩)
            · exact .inl (.inl h)
            · exact .inl (.inr ⟨hv, hn⟩)
            · refine .inr ⟨h, fun l' hl' g' => ?_⟩
              rcases List.mem_cons.1 hl' with rfl | hl'
              · exact fun hh => hne (uniq hh hv).1
              · exact hn l' hl' g'
          · rintro ((h | ⟨h, hn⟩) | ⟨h, hn⟩)
            · exact .inl h
            · obtain ⟨rfl, rfl⟩ := uniq h hv
              exact .inr ⟨.inl ⟨rfl, rfl⟩, hn⟩
            · refine .inr ⟨.inr ⟨?_, h⟩, fun l' hl' => hn l' (List.mem_cons_of_mem _ hl')⟩
              rintro rfl
              exact hn l (by simp) _ hv
        · intro l' hl' i hm
          rcases List.mem_cons.1 hl' with rfl | hl'
          · rcases hm with ⟨g, hg⟩ | ⟨e', he', hi⟩
            · rw [(uniq hg hv).1]
              exact (le_max_right _ _).trans hge
            · exact absurd hv (ev he')
          · exact hle l' hl' i hm
        · rcases hor with h | ⟨l', hl', hm⟩
          · rw [h]
            rcases max_choice s.num i0 with q | q
            · exact .inl q
            · rw [q]
              exact .inr ⟨l, by simp, .inl ⟨g0, hv⟩⟩
          · exact .inr ⟨l', List.mem_cons_of_mem _ hl', hm⟩
      · obtain ⟨⟨es, e1, f1⟩, hsort, hmem, hle, hge, hor⟩ := ih _ hs a h2
        have nv : ∀ i g, ¬ IsVertex l i g := fun i g hv => ht2 hv.tag
        refine ⟨⟨es, e1, ?_⟩, hsort, fun i g => ?_, ?_, hge, ?_⟩
        · rw [List.filter_cons, if_neg (by simpa using ht1)]
          exact f1
        · rw [hmem, pos]
          constructor
          · rintro (h | ⟨h, hn⟩)
            · exact .inl (.inl h)
            · refine .inr ⟨h, fun l' hl' g' => ?_⟩
              rcases List.mem_cons.1 hl' with rfl | hl'
              · exact nv _ _
              · exact hn l' hl' g'
          · rintro ((h | ⟨h, -⟩) | ⟨h, hn⟩)
            · exact .inl h
            · exact absurd h (nv _ _)
            · exact .inr ⟨h, fun l' hl' => hn l' (List.mem_cons_of_mem _ hl')⟩
        · intro l' hl' i hm
          rcases List.mem_cons.1 hl' with rfl | hl'
          · rcases hm with ⟨g, hg⟩ | ⟨e', he', hi⟩
            · exact absurd hg (nv _ _)
            · exact absurd he'.tag ht1
          · exact hle l' hl' i hm
        · rcases hor with h | ⟨l', hl', hm⟩
          · exact .inl h
          · exact .inr ⟨l', List.mem_cons_of_mem _ hl', hm⟩
  unfold read3 at h
  obtain ⟨b, hb, ⟨rfl⟩⟩ := bind_ok.1 h
  obtain ⟨⟨es, e1, f1⟩, hsort, hmem, hle, hge, hor⟩ := key ⟨0, [], []⟩ (by simp) b hb
  dsimp only at e1 hmem hge hor ⊢
  refine ⟨by rw [e1]; exact f1, hsort, fun i g => ?_, fun l hl i hm => by have := hle l hl i hm; omega, by omega, ?_⟩
  · rw [hmem]; simp
  · rcases hor with h | ⟨l, hl, hm⟩
    · exact .inl (by omega)
    · exact .inr ⟨l, hl, by rw [add_sub_cancel_right]; exact hm⟩

/-! ### Vertices as a list -/

theorem increasing_ge {l : List ℤ} (hs : l.Pairwise (· < ·)) (b : ℤ) (hb : ∀ x ∈ l, b ≤ x) (k : ℕ) (hk : k < l.length) :
    b + k ≤ l[k] := by
  induction l generalizing b k with
  | nil => simp at hk
  | cons a l ih =>
    rw [List.pairwise_cons] at hs
    cases k with
    | zero => simpa using hb a (by simp)
    | succ k =>
      have := ih hs.2 (b + 1) (fun x hx => by have := hs.1 x hx; have := hb a (by simp); omega) k (by simpa using hk)
      rw [List.getElem_cons_succ]
      push_cast
      omega

theorem increasing_lt {l : List ℤ} (hs : l.Pairwise (· < ·)) (b : ℤ) (hb : ∀ x ∈ l, x < b) (k : ℕ) (hk : k < l.length) :
    l[k] + (l.length - k : ℤ) ≤ b := by
  induction l generalizing k with
  | nil => simp at hk
  | cons a l ih =>
    rw [List.pairwise_cons] at hs
    have hb' : ∀ x ∈ l, x < b := fun x hx => hb x (List.mem_cons_of_mem _ hx)
    cases k with
    | zero =>
      cases l with
      | nil => have := hb a (by simp); simp; omega
      | cons c l =>
        have := ih hs.2 hb' 0 (by simp)
        have h1 := hs.1 c (by simp)
        simp only [List.getElem_cons_zero, List.length_cons] at this ⊢
        push_cast at this ⊢
        omega
    | succ k =>
      have := ih hs.2 hb' k (by simpa using hk)
      rw [List.getElem_cons_succ, List.length_cons]
      push_cast
      omega

/-- **Edges refer to positions.** If no id is negative and there are as many vertices as the number that is returned
(so there is one for every id below), then the `k`-th vertex of the list is the one with id `k`, and both ends of
every edge with non-negative ids are positions of the list. -/
theorem read_positions {file : List (List Tok)} {a : Acc SE3 (Fin 6 → ℝ)} (h : read3 file = .ok a)
    (h0 : ∀ i g, (i, g) ∈ a.verts → 0 ≤ i) (hn : a.num = a.verts.length) :
    (∀ (k : ℕ) (hk : k < a.verts.length), a.verts[k].1 = k) ∧
    ∀ e ∈ a.edges, e.i < a.verts.length ∧ e.j < a.verts.length := by
  obtain ⟨he, hs, hm, hlt, -, -⟩ := read_result h
  constructor
  · intro k hk
    have hl : k < (a.verts.map Prod.fst).length := by simpa using hk
    have b1 := increasing_ge hs 0 (fun x hx => by
      obtain ⟨⟨i, g⟩, hi, rfl⟩ := List.mem_map.1 hx
      exact h0 i g hi) k hl
    have b2 := increasing_lt hs a.num (fun x hx => by
      obtain ⟨⟨i, g⟩, hi, rfl⟩ := List.mem_map.1 hx
      obtain ⟨pre, l, post, rfl, hv, -⟩ := (hm i g).1 hi
      exact hlt l (by simp) i (.inl ⟨g, hv⟩)) k hl
    rw [List.getElem_map] at b1 b2
    have e : (a.verts.map Prod.fst).length = a.verts.length := List.length_map ..
    have e' : ((a.verts.map Prod.fst).length : ℤ) = a.verts.length := by rw [e]
    omega
  · intro e hee
    have : ∃ l ∈ file, IsEdge l e := by
      obtain ⟨k, hk, rfl⟩ := List.getElem_of_mem hee
      have hk' : k < (file.filter fun l => tag l == some "EDGE_SE3:QUAT").length := by rw [he.length_eq]; exact hk
      exact ⟨_, List.mem_of_mem_filter (List.getElem_mem hk'), he.get hk' hk⟩
    obtain ⟨l, hl, hle⟩ := this
    rw [← hn]
    exact ⟨hlt l hl _ (.inr ⟨e, hle, .inl rfl⟩), hlt l hl _ (.inr ⟨e, hle, .inr rfl⟩)⟩

/-- **Ids that do not start at 0 are shifted**: in a file whose smallest id is positive, no vertex is at the position
of its id, so that every edge refers to wrong poses or outside of the list; the same holds from any gap on. -/
theorem read_shifted {file : List (List Tok)} {a : Acc SE3 (Fin 6 → ℝ)} (h : read3 file = .ok a) (m : ℕ)
    (hm : m ≤ a.verts.length) (hgap : ∀ i g, (i, g) ∈ a.verts.drop m → (m : ℤ) < i) :
    ∀ (k : ℕ) (hk : k < a.verts.length), m ≤ k → (k : ℤ) < a.verts[k].1 := by
  obtain ⟨-, hs, -⟩ := read_result h
  intro k hk hmk
  have hs' : ((a.verts.drop m).map Prod.fst).Pairwise (· < ·) := by
    rw [List.map_drop]; exact hs.sublist (List.drop_sublist _ _)
  have := increasing_ge hs' (m + 1) (fun x hx => by
    obtain ⟨⟨i, g⟩, hi, rfl⟩ := List.mem_map.1 hx
    have := hgap i g hi
    omega) (k - m) (by simp; omega)
  rw [List.getElem_map, List.getElem_drop] at this
  have e : m + (k - m) = k := by omega
  simp only [e] at this
  push_cast [hmk] at this
  omega

/-! ### Information matrices -/

/-- **Only the diagonal of the information matrix is used**: two files that differ in the other numbers of a line give
the same result. -/
theorem read_ignores_offdiagonal (pre post : List (List Tok)) (i j : ℤ) (p : List Tok) (hp : p.length = 7)
    (v v' : List ℝ)  (hd : ∀ k ∈ [0, 6, 11, 15, 18, 20], v[k]? = v'[k]?) :
    read3 (pre ++ (.word "EDGE_SE3:QUAT" :: .int i :: .int j :: (p ++ v.map .real)) :: post) =
      read3 (pre ++ (.word "EDGE_SE3:QUAT" :: .int i :: .int j :: (p ++ v'.map .real)) :: post) := by
  have hf : ∀ v : List ℝ, floats (v.map .real) = .ok v := by
    intro v
    rw [floats_ok]
    induction v with
    | nil => exact .nil
    | cons a v ih => exact .cons (.real a) ih
  have hw : weightOf v = weightOf v' := by
    unfold weightOf
    rw [hd 0 (by simp), hd 6 (by simp), hd 11 (by simp), hd 15 (by simp), hd 18 (by simp), hd 20 (by simp)]
  have hline : ∀ s, line3 s (.word "EDGE_SE3:QUAT" :: .int i :: .int j :: (p ++ v.map .real)) =
      line3 s (.word "EDGE_SE3:QUAT" :: .int i :: .int j :: (p ++ v'.map .real)) := by
    intro s
    have e1 : ∀ q : List Tok, List.take 7 (p ++ q) = p := fun q => by rw [← hp, List.take_left]
    have e2 : ∀ q : List Tok, List.drop 7 (p ++ q) = q := fun q => by rw [← hp, List.drop_left]
    simp only [line3, intAt, List.getElem?_cons_succ, List.getElem?_cons_zero, List.drop_succ_cons, List.drop_zero, e1, e2,
      hf, bind, hw]
  have hloop : ∀ s, loop line3 s (pre ++ (.word "EDGE_SE3:QUAT" :: .int i :: .int j :: (p ++ v.map .real)) :: post) =
      loop line3 s (pre ++ (.word "EDGE_SE3:QUAT" :: .int i :: .int j :: (p ++ v'.map .real)) :: post) := by
    induction pre with
    | nil => intro s; simp only [List.nil_append, loop, hline]
    | cons l pre ih => intro s; simp only [List.cons_append, loop, ih]
  unfold read3
  rw [hloop]

/-! ### Writing and reading -/

/-- The rotation is not one for which `to_quaternion` divides by zero (C61). -/
def Writable (c : Thresholds) (g : SE3) : Prop :=
  (g.R.transpose * g.R = 1 ∧ g.R.det = 1) ∧ (Real.cos (SO3.theta g.R / 2) ≤ c.nearPi → ¬ SO3.TieAxis g.R)

/-- The relations between the thresholds; they hold for those of the library. -/
def Thresholds.Good (c : Thresholds) : Prop :=
  0 ≤ c.nearPi ∧ c.nearPi ≤ 1 - c.nearZero ∧ c.nearPi < 1 ∧ c.sqrtEps + c.nearPi ^ 2 ≤ 1

theorem poseToks_isPose {c : Thresholds} (hc : c.Good) {g : SE3} (hg : Writable c g) : IsPose (poseToks c g) g := by
  obtain ⟨h1, -, -, h4⟩ := so3_to_quaternion_partial (epz := c.nearZero) (esq := c.sqrtEps) hc.1 hc.2.1 hc.2.2.1 hc.2.2.2
    hg.1 hg.2
  set q := SO3.toQuaternion c.nearZero c.nearPi c.sqrtEps g.R with hq
  have eq : ![q 0, q 1, q 2, q 3] = q := by funext i; fin_cases i <;> rfl
  refine ⟨g.t 0, g.t 1, g.t 2, q 1, q 2, q 3, q 0, ?_, ?_, ?_, ?_⟩
  · exact .cons (.real _) (.cons (.real _) (.cons (.real _) (.cons (.real _) (.cons (.real _) (.cons (.real _)
      (.cons (.real _) .nil))))))
  · rw [eq]
    intro h
    rw [h] at h1
    simp at h1
  · funext i; fin_cases i <;> rfl
  · rw [eq, h4]

theorem weightToks_isWeight (w : Fin 6 → ℝ) : IsWeight (weightToks w) fun k => |w k| := by
  refine ⟨[w 0 ^ 2, ((0 : ℤ) : ℝ), ((0 : ℤ) : ℝ), ((0 : ℤ) : ℝ), ((0 : ℤ) : ℝ), ((0 : ℤ) : ℝ), w 1 ^ 2, ((0 : ℤ) : ℝ),
    ((0 : ℤ) : ℝ), ((0 : ℤ) : ℝ), ((0 : ℤ) : ℝ), w 2 ^ 2, ((0 : ℤ) : ℝ), ((0 : ℤ) : ℝ), ((0 : ℤ) : ℝ), w 3 ^ 2,
    ((0 : ℤ) : ℝ), ((0 : ℤ) : ℝ), w 4 ^ 2, ((0 : ℤ) : ℝ), w 5 ^ 2], ?_, by simp, fun k => abs_nonneg _, ?_⟩
  · unfold weightToks
    repeat' first
      | exact .nil
      | refine .cons (.real _) ?_
      | refine .cons (.int _) ?_
  · simp only [sq_abs]
    exact ⟨rfl, rfl, rfl, rfl, rfl, rfl⟩

theorem loop_append {P W : Type} (line : Acc P W → List Tok → Except Exc (Acc P W)) (s : Acc P W)
    (A B : List (List Tok)) : loop line s (A ++ B) = bind (loop line s A) fun s' => loop line s' B := by
  induction A generalizing s with
  | nil => rfl
  | cons l A ih =>
    simp only [List.cons_append, loop]
    cases line s l with
    | ok s' => exact ih s'
    | error e => rfl

theorem setVert_last {P : Type} (i : ℤ) (g : P) (l : List (ℤ × P)) (h : ∀ p ∈ l, p.1 < i) : setVert i g l = l ++ [(i, g)] := by
  induction l with
  | nil => rfl
  | cons p l ih =>
    obtain ⟨k, x⟩ := p
    have := h (k, x) (by simp)
    simp only at this
    simp only [setVert]
    rw [if_neg (by omega), if_neg (by omega), ih fun p hp => h p (List.mem_cons_of_mem _ hp)]
    rfl

/-- **Writing and reading gives back the element**: for every dataset of poses that `to_quaternion` converts, the file of
element `n` is read as the poses of that element, in order, and the edges with the same ends, the measurements of
that element and the absolute values of the weights of the first element; the number of vertices is that of the
poses, if the edges refer to them. -/
theorem write_read {c : Thresholds} (hc : c.Good) {B b : ℕ} (poses : List (Fin B → SE3))
    (edges : List (Edge (Fin B → SE3) (Fin (b + 1) → Fin 6 → ℝ))) (n : Fin B) (hp : ∀ p ∈ poses, Writable c (p n))
    (he : ∀ e ∈ edges, Writable c (e.rel n)) :
    ∃ N, read3 (write3 c poses edges n) = .ok ⟨N, poses.zipIdx.map fun p => ((p.2 : ℤ), p.1 n),
        edges.map fun e => ⟨e.i, e.j, e.rel n, fun k => |e.weight 0 k|⟩⟩ ∧
      (poses ≠ [] → (∀ e ∈ edges, e.i < poses.length ∧ e.j < poses.length) → N = poses.length) := by
  have h1 : ∀ s : Acc SE3 (Fin 6 → ℝ), ∃ m, loop line3 s (edges.map fun e => .word "EDGE_SE3:QUAT" :: .int e.i :: .int e.j ::
      (poseToks c (e.rel n) ++ weightToks (e.weight 0))) = .ok ⟨m, s.verts,
        s.edges ++ edges.map fun e => ⟨e.i, e.j, e.rel n, fun k => |e.weight 0 k|⟩⟩ ∧
      ∀ M : ℤ, s.num ≤ M → (∀ e ∈ edges, e.i ≤ M ∧ e.j ≤ M) → m ≤ M := by
    induction edges with
    | nil => exact fun s => ⟨s.num, by simp [loop], fun M h _ => h⟩
    | cons e edges ih =>
      intro s
      have hl := line3_ok (s := s).2 (.inl ⟨⟨e.i, e.j, e.rel n, fun k => |e.weight 0 k|⟩, ⟨_, _, rfl,
        poseToks_isPose hc (he e (by simp)), weightToks_isWeight (e.weight 0)⟩, rfl⟩)
      obtain ⟨m, hm, hM⟩ := ih (fun e h => he e (by simp [h])) ⟨max (max s.num e.i) e.j, s.verts,
        s.edges ++ [⟨e.i, e.j, e.rel n, fun k => |e.weight 0 k|⟩]⟩
      refine ⟨m, ?_, fun M h1 h2 => hM M ?_ fun e h => h2 e (by simp [h])⟩
      · rw [List.map_cons, loop, hl]
        show loop line3 _ _ = _
        rw [hm]
        simp
      · exact max_le (max_le h1 (h2 e (by simp)).1) (h2 e (by simp)).2
  have h2 : ∀ (k : ℕ) (s : Acc SE3 (Fin 6 → ℝ)), (∀ p ∈ s.verts, p.1 < k) → ∃ m, loop line3 s ((poses.zipIdx k).map fun p =>
      .word "VERTEX_SE3:QUAT" :: .int (p.2 : ℤ) :: poseToks c (p.1 n)) =
        .ok ⟨m, s.verts ++ (poses.zipIdx k).map fun p => ((p.2 : ℤ), p.1 n), s.edges⟩ ∧
      (poses ≠ [] → s.num < (k + poses.length : ℤ) → m + 1 = k + poses.length) := by
    induction poses with
    | nil => exact fun k s _ => ⟨s.num, by simp [loop], fun h => absurd rfl h⟩
    | cons p poses ih =>
      intro k s hk
      have hl := line3_ok (s := s).2 (.inr (.inl ⟨(k : ℤ), p n, ⟨_, rfl, poseToks_isPose hc (hp p (by simp))⟩, rfl⟩))
      rw [setVert_last _ _ _ hk] at hl
      obtain ⟨m, hm, hM⟩ := ih (fun q h => hp q (by simp [h])) (k + 1) ⟨max s.num k, s.verts ++ [((k : ℤ), p n)], s.edges⟩ (by
        intro q hq
        rcases List.mem_append.1 hq with hq | hq
        · have := hk q hq; push_cast; omega
        · rw [List.mem_singleton.1 hq]; push_cast; omega)
      refine ⟨m, ?_, fun _ hnum => ?_⟩
      · rw [List.zipIdx_cons, List.map_cons, loop, hl]
        show loop line3 _ _ = _
        rw [hm]
        simp
      · rw [List.length_cons] at hnum ⊢
        push_cast at hnum ⊢
        by_cases hpe : poses = []
        · subst hpe
          have := Except.ok.inj hm
          have hmm := congrArg Acc.num this
          dsimp only at hmm
          rw [← hmm]
          simp at hnum ⊢
          omega
        · have := hM hpe (by
            dsimp only
            push_cast
            have := List.length_pos_iff.2 hpe
            rcases max_choice s.num (k : ℤ) with q | q <;> rw [q] <;> omega)
          push_cast at this
          omega
  obtain ⟨m1, l1, b1⟩ := h1 ⟨0, [], []⟩
  obtain ⟨m2, l2, b2⟩ := h2 0 ⟨m1, [], edges.map fun e => ⟨e.i, e.j, e.rel n, fun k => |e.weight 0 k|⟩⟩ (by simp)
  refine ⟨m2 + 1, ?_, fun hne hed => ?_⟩
  · unfold read3 write3
    rw [loop_append]
    simp only [List.nil_append] at l1 l2
    rw [l1]
    show bind (loop line3 _ _) _ = _
    rw [l2]
    rfl
  · have hpos := List.length_pos_iff.2 hne
    have := b2 hne (by
      have := b1 (poses.length - 1) (by dsimp only; omega) fun e h => by have := hed e h; omega
      dsimp only
      push_cast
      omega)
    push_cast at this
    omega

/-- Two poses with the library's thresholds for double precision. -/
example : (⟨5 / 1000, 1 / 10000000, 1 / 1000000⟩ : Thresholds).Good ∧
    Writable ⟨5 / 1000, 1 / 10000000, 1 / 1000000⟩ ⟨1, ![1, 2, 3]⟩ := by
  refine ⟨by norm_num [Thresholds.Good], ⟨by simp, by simp⟩, fun h => ?_⟩
  have t : SO3.theta (1 : M3) = 0 := (SE3.log_of_one (eps := 1) (epi := 1) (by norm_num)).2.1
  rw [t] at h
  norm_num at h

/-! ### Planar pose graphs -/

/-- **`read_2D_g2o_file` cannot read edges**: a file with a line of that kind is never read. -/
theorem read2_edges_raise (pre post : List (List Tok)) (l : List Tok) (hl : tag l = some "EDGE_SE2") :
    ∀ a, read2 (pre ++ l :: post) ≠ .ok a := by
  intro a h
  unfold read2 at h
  obtain ⟨b, hb, -⟩ := bind_ok.1 h
  rw [loop_append] at hb
  obtain ⟨s, -, hb⟩ := bind_ok.1 hb
  obtain ⟨s', hb, -⟩ := bind_ok.1 hb
  match l, hl with
  | .word w :: r, hl =>
    cases hl
    simp only [line2, bind_ok] at hb
    obtain ⟨_, _, _, _, _, _, _, _, hb⟩ := hb
    cases hb

/-- A complete line raises `TypeError`. -/
example : read2 [[.word "EDGE_SE2", .int 0, .int 1, .real 1, .real 0, .real 0, .int 1, .int 0, .int 0, .int 1, .int 0,
    .int 1]] = .error .type := by
  simp [read2, loop, line2, bind, intAt, floats, pose2Of]

/-- Vertices alone are read. -/
example : ∃ a, read2 [[.word "VERTEX_SE2", .int 0, .real 1, .int 0, .int 0]] = .ok a ∧ a.verts.length = 1 := by
  simp [read2, loop, line2, bind, intAt, floats, pose2Of, setVert]

/-- A vertex with id 1 and nothing else: the number of vertices is 2, the list has one element. -/
example : ∃ a, read3 [[.word "VERTEX_SE3:QUAT", .int 1, .int 0, .int 0, .int 0, .int 0, .int 0, .int 0, .int 2]] = .ok a ∧
    a.num = 2 ∧ a.verts.length = 1 := by
  obtain ⟨a, ha⟩ := (read_returns [[.word "VERTEX_SE3:QUAT", .int 1, .int 0, .int 0, .int 0, .int 0, .int 0, .int 0,
    .int 2]]).2 (by
      intro l hl
      rw [List.mem_singleton] at hl
      subst hl
      refine ⟨by simp, fun h => by simp [tag] at h, fun _ => ⟨1, ⟨SO3.ofQuaternion ![2, 0, 0, 0], ![0, 0, 0]⟩, _, rfl,
        0, 0, 0, 0, 0, 0, 2, ?_, ?_, rfl, rfl⟩⟩
      · have z : Num (.int 0) 0 := by simpa using Num.int 0
        have t : Num (.int 2) 2 := by simpa using Num.int 2
        exact .cons z (.cons z (.cons z (.cons z (.cons z (.cons z (.cons t .nil))))))
      · intro h
        have := congrFun h 0
        simp at this)
  have e := ha
  simp only [read3, loop, line3, bind_ok] at e
  obtain ⟨_, ⟨_, ⟨_, h1, _, h2, _, h3, ⟨rfl⟩⟩, ⟨rfl⟩⟩, ⟨rfl⟩⟩ := e
  rw [intAt_ok] at h1
  simp only [List.getElem?_cons_succ, List.getElem?_cons_zero, Option.some.injEq, Tok.int.injEq] at h1
  subst h1
  exact ⟨_, ha, rfl, rfl⟩

end Verif.PoseGraph
