import Verif.Embodied.Sdf
import Mathlib.Analysis.SpecialFunctions.Pow.Real
import Mathlib.Tactic

/-!
# Properties of the field computed from an occupancy map (C72)
-/

namespace Verif.Embodied
variable {R C : ℕ} {junk : Fin R × Fin C → ℝ} {thr h : ℝ} {map : Fin R × Fin C → ℝ}

theorem cellDist_nonneg (a b : Fin R × Fin C) : 0 ≤ cellDist a b := Real.sqrt_nonneg _

theorem cellDist_comm (a b : Fin R × Fin C) : cellDist a b = cellDist b a := by
  unfold cellDist; congr 1; ring

theorem cellDist_one_le {a b : Fin R × Fin C} (hab : a ≠ b) : 1 ≤ cellDist a b := by
  unfold cellDist
  rw [Real.one_le_sqrt]
  have key : ∀ m n : ℕ, m ≠ n → (1 : ℝ) ≤ ((m : ℝ) - n) ^ 2 := by
    intro m n hmn
    have : (1 : ℤ) ≤ ((m : ℤ) - n) ^ 2 := by
      have : (m : ℤ) - n ≠ 0 := by omega
      have := Int.one_le_abs this
      nlinarith [sq_abs ((m : ℤ) - n), abs_nonneg ((m : ℤ) - n)]
    exact_mod_cast this
  rcases ne_or_eq a.1 b.1 with h1 | h1
  · have := key a.1 b.1 (fun h => h1 (Fin.ext h))
    nlinarith [sq_nonneg ((a.2 : ℝ) - b.2)]
  · have h2 : a.2 ≠ b.2 := fun h => hab (Prod.ext h1 h)
    have := key a.2 b.2 (fun h => h2 (Fin.ext h))
    nlinarith [sq_nonneg ((a.1 : ℝ) - b.1)]

theorem cellDist_lt (a b : Fin R × Fin C) : cellDist a b < 2 * (max R C : ℕ) := by
  have h1 : ((a.1 : ℝ) - b.1) ^ 2 ≤ ((max R C : ℕ) : ℝ) ^ 2 := by
    rw [sq_le_sq, abs_of_nonneg (a := ((max R C : ℕ) : ℝ)) (Nat.cast_nonneg _), abs_le]
    have := a.1.2; have := b.1.2
    have e1 : (a.1 : ℝ) ≤ (max R C : ℕ) := by exact_mod_cast (by omega : (a.1 : ℕ) ≤ max R C)
    have e2 : (b.1 : ℝ) ≤ (max R C : ℕ) := by exact_mod_cast (by omega : (b.1 : ℕ) ≤ max R C)
    have e3 : (0 : ℝ) ≤ a.1 := Nat.cast_nonneg _
    have e4 : (0 : ℝ) ≤ b.1 := Nat.cast_nonneg _
    constructor <;> linarith
  have h2 : ((a.2 : ℝ) - b.2) ^ 2 ≤ ((max R C : ℕ) : ℝ) ^ 2 := by
    rw [sq_le_sq, abs_of_nonneg (a := ((max R C : ℕ) : ℝ)) (Nat.cast_nonneg _), abs_le]
    have := a.2.2; have := b.2.2
    have e1 : (a.2 : ℝ) ≤ (max R C : ℕ) := by exact_mod_cast (by omega : (a.2 : ℕ) ≤ max R C)
    have e2 : (b.2 : ℝ) ≤ (max R C : ℕ) := by exact_mod_cast (by omega : (b.2 : ℕ) ≤ max R C)
    have e3 : (0 : ℝ) ≤ a.2 := Nat.cast_nonneg _
    have e4 : (0 : ℝ) ≤ b.2 := Nat.cast_nonneg _
    constructor <;> linarith
  have h3 : (0 : ℝ) < (max R C : ℕ) := by
    have := a.1.2
    exact_mod_cast (by omega : 0 < max R C)
  unfold cellDist
  rw [Real.sqrt_lt' (by linarith)]
  nlinarith

theorem cellDist_triangle (a b c : Fin R × Fin C) : cellDist a c ≤ cellDist a b + cellDist b c := by
  have key : ∀ x y z w : ℝ, Real.sqrt ((x + z) ^ 2 + (y + w) ^ 2)
      ≤ Real.sqrt (x ^ 2 + y ^ 2) + Real.sqrt (z ^ 2 + w ^ 2) := by
    intro x y z w
    have h1 := Real.sqrt_nonneg (x ^ 2 + y ^ 2)
    have h2 := Real.sqrt_nonneg (z ^ 2 + w ^ 2)
    have s1 := Real.sq_sqrt (by positivity : 0 ≤ x ^ 2 + y ^ 2)
    have s2 := Real.sq_sqrt (by positivity : 0 ≤ z ^ 2 + w ^ 2)
    refine Real.sqrt_le_iff.mpr ⟨by positivity, ?_⟩
    have cs : x * z + y * w ≤ Real.sqrt (x ^ 2 + y ^ 2) * Real.sqrt (z ^ 2 + w ^ 2) := by
      rw [← Real.sqrt_mul (by positivity)]
      refine Real.le_sqrt_of_sq_le ?_
      nlinarith [sq_nonneg (x * w - y * z)]
    nlinarith
  have := key ((a.1 : ℝ) - b.1) ((a.2 : ℝ) - b.2) ((b.1 : ℝ) - c.1) ((b.2 : ℝ) - c.2)
  simpa [cellDist] using this

/-- The value of `edt` is attained at, and bounded by, the background cells. -/
theorem edt_spec {fg : Fin R × Fin C → Prop} {a : Fin R × Fin C} (ha : fg a)
    (hne : ∃ b, ¬ fg b) :
    (∃ b, ¬ fg b ∧ edt junk fg a = cellDist a b) ∧ ∀ b, ¬ fg b → edt junk fg a ≤ cellDist a b := by
  classical
  have hn : (Finset.univ.filter fun b => ¬ fg b).Nonempty := by
    obtain ⟨b, hb⟩ := hne
    exact ⟨b, by simpa using hb⟩
  have e : edt junk fg a = (Finset.univ.filter fun b => ¬ fg b).inf' hn (cellDist a) := by
    simp only [edt, if_pos ha, dif_pos hn]
  refine ⟨?_, fun b hb => ?_⟩
  · obtain ⟨b, hb, hb'⟩ := Finset.exists_mem_eq_inf' hn (cellDist a)
    exact ⟨b, by simpa using hb, e.trans hb'⟩
  · rw [e]
    exact Finset.inf'_le _ (by simpa using hb)

/-- In a free cell the field is the distance, in units of length, between its center and the center
of the nearest occupied cell. -/
theorem map_free_cell (hh : 0 < h) {a : Fin R × Fin C} (ha : map a ≤ thr)
    (hocc : ∃ b, map b > thr) :
    (∃ b, map b > thr ∧ sdfOfMap junk thr h map a = h * cellDist a b) ∧
    ∀ b, map b > thr → sdfOfMap junk thr h map a ≤ h * cellDist a b := by
  have h0 : ¬ ∀ b, ¬ occupied thr map b := by
    obtain ⟨b, hb⟩ := hocc
    exact fun hall => hall b hb
  have hfa : ¬ occupied thr map a := by simpa [occupied] using ha
  have e : sdfOfMap junk thr h map a = h * edt junk (fun b => ¬ occupied thr map b) a := by
    unfold sdfOfMap
    rw [if_neg h0]
    have : edt junk (occupied thr map) a = 0 := by simp only [edt, if_neg hfa]
    rw [this]; ring
  obtain ⟨⟨b, hb, hb'⟩, hall⟩ := edt_spec (junk := junk) (fg := fun b => ¬ occupied thr map b) hfa
    (by obtain ⟨b, hb⟩ := hocc; exact ⟨b, not_not.mpr hb⟩)
  refine ⟨⟨b, not_not.mp hb, by rw [e, hb']⟩, fun c hc => ?_⟩
  rw [e]
  exact mul_le_mul_of_nonneg_left (hall c (not_not.mpr hc)) hh.le

/-- In an occupied cell the field is minus the distance to the nearest free cell. -/
theorem map_occupied_cell (hh : 0 < h) {a : Fin R × Fin C} (ha : map a > thr)
    (hfree : ∃ b, map b ≤ thr) :
    (∃ b, map b ≤ thr ∧ sdfOfMap junk thr h map a = -(h * cellDist a b)) ∧
    ∀ b, map b ≤ thr → -(h * cellDist a b) ≤ sdfOfMap junk thr h map a := by
  have h0 : ¬ ∀ b, ¬ occupied thr map b := fun hall => hall a ha
  have e : sdfOfMap junk thr h map a = -(h * edt junk (occupied thr map) a) := by
    unfold sdfOfMap
    rw [if_neg h0]
    have : edt junk (fun b => ¬ occupied thr map b) a = 0 := by
      simp only [edt, if_neg (not_not.mpr (show occupied thr map a from ha))]
    rw [this]; ring
  obtain ⟨⟨b, hb, hb'⟩, hall⟩ := edt_spec (junk := junk) (fg := occupied thr map) ha
    (by obtain ⟨b, hb⟩ := hfree; exact ⟨b, by simpa [occupied] using hb⟩)
  refine ⟨⟨b, by simpa [occupied] using hb, by rw [e, hb']⟩, fun c hc => ?_⟩
  rw [e, neg_le_neg_iff]
  exact mul_le_mul_of_nonneg_left (hall c (by simpa [occupied] using hc)) hh.le

/-- The sign of the field tells free cells from occupied ones, and the field is at least one cell
away from zero: no cell center is on the boundary. -/
theorem map_sign (hh : 0 < h) (hocc : ∃ b, map b > thr) (hfree : ∃ b, map b ≤ thr)
    (a : Fin R × Fin C) :
    (map a ≤ thr ↔ 0 < sdfOfMap junk thr h map a) ∧ h ≤ |sdfOfMap junk thr h map a| := by
  rcases le_or_gt (map a) thr with ha | ha
  · obtain ⟨⟨b, hb, hb'⟩, -⟩ := map_free_cell (junk := junk) hh ha hocc
    have hne : a ≠ b := by rintro rfl; exact absurd hb (not_lt.mpr ha)
    have h1 := cellDist_one_le hne
    have h2 : h ≤ h * cellDist a b := by nlinarith
    rw [hb']
    exact ⟨⟨fun _ => by linarith, fun _ => ha⟩, by rw [abs_of_pos (by linarith)]; exact h2⟩
  · obtain ⟨⟨b, hb, hb'⟩, -⟩ := map_occupied_cell (junk := junk) hh ha hfree
    have hne : a ≠ b := by rintro rfl; exact absurd ha (not_lt.mpr hb)
    have h1 := cellDist_one_le hne
    have h2 : h ≤ h * cellDist a b := by nlinarith
    rw [hb']
    refine ⟨⟨fun h3 => absurd h3 (not_le.mpr ha), fun h3 => by linarith⟩, ?_⟩
    rw [abs_neg, abs_of_pos (by linarith)]; exact h2

/-- A map without obstacles: the field is constant, and larger than every distance between two cells
of the map. -/
theorem map_empty (hh : 0 < h) (hfree : ∀ b, map b ≤ thr) (a : Fin R × Fin C) :
    sdfOfMap junk thr h map a = 2 * h * (max R C : ℕ) ∧
    ∀ b c : Fin R × Fin C, h * cellDist b c < sdfOfMap junk thr h map a := by
  have e : sdfOfMap junk thr h map a = 2 * h * (max R C : ℕ) := by
    unfold sdfOfMap
    rw [if_pos]
    intro b
    simpa [occupied] using hfree b
  refine ⟨e, fun b c => ?_⟩
  rw [e]
  have := cellDist_lt b c
  nlinarith

/-- The field never changes by more than twice the distance between two cells. -/
theorem map_lipschitz (hh : 0 < h) (hocc : ∃ b, map b > thr) (hfree : ∃ b, map b ≤ thr)
    (a b : Fin R × Fin C) :
    |sdfOfMap junk thr h map a - sdfOfMap junk thr h map b| ≤ 2 * (h * cellDist a b) := by
  have key : ∀ a b : Fin R × Fin C,
      sdfOfMap junk thr h map a - sdfOfMap junk thr h map b ≤ 2 * (h * cellDist a b) := by
    intro a b
    have hnn : 0 ≤ h * cellDist a b := mul_nonneg hh.le (cellDist_nonneg a b)
    rcases le_or_gt (map a) thr with ha | ha <;> rcases le_or_gt (map b) thr with hb | hb
    · obtain ⟨⟨o, ho, ho'⟩, -⟩ := map_free_cell (junk := junk) hh hb hocc
      obtain ⟨-, h1⟩ := map_free_cell (junk := junk) hh ha hocc
      have h2 := h1 o ho
      have h3 := mul_le_mul_of_nonneg_left (cellDist_triangle a b o) hh.le
      rw [mul_add] at h3
      linarith
    · obtain ⟨-, h1⟩ := map_free_cell (junk := junk) hh ha hocc
      obtain ⟨-, h2⟩ := map_occupied_cell (junk := junk) hh hb hfree
      have h3 := h1 b hb
      have h4 := h2 a ha
      rw [cellDist_comm b a] at h4
      linarith
    · have h1 := (map_sign (junk := junk) hh hocc hfree b).1.mp hb
      have h2 : ¬ 0 < sdfOfMap junk thr h map a := fun h0 => absurd ((map_sign (junk := junk) hh hocc hfree a).1.mpr h0)
        (not_le.mpr ha)
      linarith [not_lt.mp h2]
    · obtain ⟨⟨o, ho, ho'⟩, -⟩ := map_occupied_cell (junk := junk) hh ha hfree
      obtain ⟨-, h1⟩ := map_occupied_cell (junk := junk) hh hb hfree
      have h2 := h1 o ho
      have h3 := mul_le_mul_of_nonneg_left (cellDist_triangle b a o) hh.le
      rw [mul_add, cellDist_comm b a] at h3
      linarith
  rw [abs_le]
  have h1 := key a b
  have h2 := key b a
  rw [cellDist_comm b a] at h2
  constructor <;> linarith

/-- More obstacles never make the field larger, at any cell. -/
theorem map_antitone (hh : 0 < h) {map' : Fin R × Fin C → ℝ} (hle : ∀ b, map b ≤ map' b)
    (hfree : ∃ b, map' b ≤ thr) (a : Fin R × Fin C) :
    sdfOfMap junk thr h map' a ≤ sdfOfMap junk thr h map a := by
  have hfree1 : ∃ b, map b ≤ thr := by
    obtain ⟨b, hb⟩ := hfree
    exact ⟨b, (hle b).trans hb⟩
  by_cases hocc : ∃ b, map b > thr
  · have hocc' : ∃ b, map' b > thr := by
      obtain ⟨b, hb⟩ := hocc
      exact ⟨b, lt_of_lt_of_le hb (hle b)⟩
    rcases le_or_gt (map a) thr with ha | ha <;> rcases le_or_gt (map' a) thr with ha' | ha'
    · obtain ⟨⟨o, ho, ho'⟩, -⟩ := map_free_cell (junk := junk) hh ha hocc
      obtain ⟨-, h1⟩ := map_free_cell (junk := junk) hh ha' hocc'
      rw [ho']
      exact h1 o (lt_of_lt_of_le ho (hle o))
    · have h1 := (map_sign (junk := junk) hh hocc hfree1 a).1.mp ha
      have h2 : ¬ 0 < sdfOfMap junk thr h map' a := fun h0 => absurd
        ((map_sign (junk := junk) hh hocc' hfree a).1.mpr h0)
        (not_le.mpr ha')
      linarith [not_lt.mp h2]
    · exact absurd (lt_of_lt_of_le ha (hle a)) (not_lt.mpr ha')
    · obtain ⟨⟨o, ho, ho'⟩, -⟩ := map_occupied_cell (junk := junk) hh ha' hfree
      obtain ⟨-, h1⟩ := map_occupied_cell (junk := junk) hh ha hfree1
      rw [ho']
      exact h1 o ((hle o).trans ho)
  · push Not at hocc
    obtain ⟨e, hlt⟩ := map_empty (junk := junk) hh hocc a
    by_cases hocc' : ∃ b, map' b > thr
    · rcases le_or_gt (map' a) thr with ha' | ha'
      · obtain ⟨⟨o, ho, ho'⟩, -⟩ := map_free_cell (junk := junk) hh ha' hocc'
        rw [ho']
        exact (hlt a o).le
      · obtain ⟨⟨o, ho, ho'⟩, -⟩ := map_occupied_cell (junk := junk) hh ha' hfree
        have := hlt a o
        have := mul_nonneg hh.le (cellDist_nonneg a o)
        linarith
    · push Not at hocc'
      rw [e, (map_empty (junk := junk) hh hocc' a).1]

/-- **Outside the domain.**  For a map without free cells the result is whatever the distance
transform returns when there is no background. -/
theorem map_full (hocc : ∀ b, map b > thr) (a : Fin R × Fin C) :
    sdfOfMap junk thr h map a = -(junk a * h) := by
  unfold sdfOfMap
  rw [if_neg (fun hall => hall a (hocc a))]
  have h1 : edt junk (fun b => ¬ occupied thr map b) a = 0 := by
    simp only [edt, if_neg (not_not.mpr (show occupied thr map a from hocc a))]
  have h2 : edt junk (occupied thr map) a = junk a := by
    have hne : ¬ (∃ b, ¬ occupied thr map b) := by
      push Not
      exact hocc
    classical
    simp only [edt, if_pos (show occupied thr map a from hocc a)]
    rw [dif_neg]
    rintro ⟨b, hb⟩
    exact hne ⟨b, by simpa using hb⟩
  rw [h1, h2]; ring

/-- Non-vacuity: a 3 x 3 map with an obstacle in the middle. -/
example : (∃ b : Fin 3 × Fin 3, (fun b => if b = (1, 1) then (1 : ℝ) else 0) b > 3 / 4) ∧
    ∃ b : Fin 3 × Fin 3, (fun b => if b = (1, 1) then (1 : ℝ) else 0) b ≤ 3 / 4 :=
  ⟨⟨(1, 1), by norm_num⟩, ⟨(0, 0), by norm_num⟩⟩

/-- Its field at the left neighbour of the obstacle is one cell. -/
example : sdfOfMap (fun _ => 0) (3 / 4) (1 / 2)
    (fun b : Fin 3 × Fin 3 => if b = (1, 1) then (1 : ℝ) else 0) (1, 0) = 1 / 2 := by
  obtain ⟨⟨b, hb, e⟩, -⟩ := map_free_cell (junk := fun _ => (0 : ℝ)) (thr := 3 / 4) (h := 1 / 2)
    (map := fun b : Fin 3 × Fin 3 => if b = (1, 1) then (1 : ℝ) else 0) (by norm_num)
    (a := (1, 0)) (by norm_num) ⟨(1, 1), by norm_num⟩
  have : b = (1, 1) := by
    by_contra hne
    norm_num [hne] at hb
  rw [e, this]
  norm_num [cellDist]

end Verif.Embodied
