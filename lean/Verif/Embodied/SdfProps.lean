import Verif.Embodied.Sdf
import Verif.Embodied.SdfSpec
import Mathlib.Analysis.Calculus.Deriv.Mul
import Mathlib.Analysis.Calculus.Deriv.Add
import Mathlib.Tactic

/-!
# Properties of the interpolation of `SignedDistanceField2D` (C71)
-/

namespace Verif.Embodied
open Verif.Geometry

namespace Sdf

theorem clamp_range (i : ℤ) {N : ℕ} (hN : 0 < N) : 0 ≤ clamp i N ∧ clamp i N < N := by
  unfold clamp; omega

theorem clamp_toNat (i : ℤ) {N : ℕ} (hN : 0 < N) : (clamp i N).toNat < N := by
  unfold clamp; omega

/-- One-dimensional linear interpolation with clamped indices, on a closed interval. -/
theorem interp1 (f : ℕ → ℝ) {N r : ℕ} (hr : r + 1 < N) {x : ℝ} (h1 : (r : ℝ) ≤ x)
    (h2 : x ≤ r + 1) :
    (((⌊x⌋ + 1 : ℤ) : ℝ) - x) * f (clamp ⌊x⌋ N).toNat + (x - ⌊x⌋) * f (clamp (⌊x⌋ + 1) N).toNat
      = (r + 1 - x) * f r + (x - r) * f (r + 1) := by
  rcases h2.lt_or_eq with h | h
  · have hf : ⌊x⌋ = (r : ℤ) := by
      rw [Int.floor_eq_iff]; push_cast; exact ⟨h1, h⟩
    have e1 : (clamp ⌊x⌋ N).toNat = r := by rw [hf]; unfold clamp; omega
    have e2 : (clamp (⌊x⌋ + 1) N).toNat = r + 1 := by rw [hf]; unfold clamp; omega
    rw [e1, e2, hf]; push_cast; ring
  · have hf : ⌊x⌋ = ((r + 1 : ℕ) : ℤ) := by
      rw [Int.floor_eq_iff]; push_cast; constructor <;> linarith
    have e1 : (clamp ⌊x⌋ N).toNat = r + 1 := by rw [hf]; unfold clamp; omega
    rw [e1, hf]; push_cast; rw [h]; ring

/-- The same at a node, also the last one. -/
theorem interp1_node (f : ℕ → ℝ) {N r : ℕ} (hr : r < N) {x : ℝ} (h : x = r) :
    (((⌊x⌋ + 1 : ℤ) : ℝ) - x) * f (clamp ⌊x⌋ N).toNat + (x - ⌊x⌋) * f (clamp (⌊x⌋ + 1) N).toNat
      = f r := by
  have hf : ⌊x⌋ = (r : ℤ) := by rw [h]; simp
  have e1 : (clamp ⌊x⌋ N).toNat = r := by rw [hf]; unfold clamp; omega
  rw [e1, hf, h]; push_cast; ring

variable {ox oy h : ℝ} {R C : ℕ} {data : ℕ → ℕ → ℝ} {bv : ℝ}

theorem gather_clamp (hR : 0 < R) (hC : 0 < C) (i j : ℤ) :
    (make ox oy h R C data bv).gather (clamp i R) (clamp j C)
      = some (data (clamp i R).toNat (clamp j C).toNat) := by
  have h1 := clamp_range i hR
  have h2 := clamp_range j hC
  simp [gather, make, h1, h2]

open Classical in
/-- The value in closed form. -/
theorem signedDistance_make (hR : 0 < R) (hC : 0 < C) (p : P2) :
    (make ox oy h R C data bv).signedDistance p =
      let y := (p.y - oy) / h
      let x := (p.x - ox) / h
      let f := fun r => (((⌊x⌋ + 1 : ℤ) : ℝ) - x) * data r (clamp ⌊x⌋ C).toNat
        + (x - ⌊x⌋) * data r (clamp (⌊x⌋ + 1) C).toNat
      let g := fun c => (((⌊y⌋ + 1 : ℤ) : ℝ) - y) * data (clamp ⌊y⌋ R).toNat c
        + (y - ⌊y⌋) * data (clamp (⌊y⌋ + 1) R).toNat c
      if (make ox oy h R C data bv).Out p then some (bv, 0, 0) else
      some ((((⌊y⌋ + 1 : ℤ) : ℝ) - y) * f (clamp ⌊y⌋ R).toNat + (y - ⌊y⌋) * f (clamp (⌊y⌋ + 1) R).toNat,
        (g (clamp (⌊x⌋ + 1) C).toNat - g (clamp ⌊x⌋ C).toNat) / h,
        (f (clamp (⌊y⌋ + 1) R).toNat - f (clamp ⌊y⌋ R).toNat) / h) := by
  have hg := fun i j => gather_clamp (ox := ox) (oy := oy) (h := h) (data := data) (bv := bv)
    hR hC i j
  simp only [signedDistance]
  have e1 : (make ox oy h R C data bv).numRows = R := rfl
  have e2 : (make ox oy h R C data bv).numCols = C := rfl
  have e3 : (make ox oy h R C data bv).row p = (p.y - oy) / h := rfl
  have e4 : (make ox oy h R C data bv).col p = (p.x - ox) / h := rfl
  have e5 : (make ox oy h R C data bv).h = h := rfl
  have e6 : (make ox oy h R C data bv).bv = bv := rfl
  simp only [e1, e2, e3, e4, e5, e6, hg, Option.bind_eq_bind, Option.bind_some]
  split_ifs
  · rfl
  · simp only [Option.pure_def, Option.some.injEq, Prod.mk.injEq]
    refine ⟨by ring, by ring, by ring⟩

theorem out_iff (p : P2) :
    (make ox oy h R C data bv).Out p ↔
      ¬ (InRect ox oy h R C p) := by
  simp only [Out, make, InRect, not_and_or, not_le, gt_iff_lt]

end Sdf

open Sdf
variable {ox oy h : ℝ} {R C : ℕ} {data : ℕ → ℕ → ℝ} {bv : ℝ}

/-- A field with at least one row and one column has a value at every point of the plane. -/
theorem sdf_total (hR : 0 < R) (hC : 0 < C) (p : P2) :
    ((Sdf.make ox oy h R C data bv).signedDistance p).isSome := by
  rw [signedDistance_make hR hC]
  simp only
  split_ifs <;> rfl

/-- At a node of the grid the distance is the stored value. -/
theorem sdf_at_node (hh : 0 < h) {r c : ℕ} (hr : r < R) (hc : c < C) :
    ∃ j1 j2, (Sdf.make ox oy h R C data bv).signedDistance ⟨ox + c * h, oy + r * h⟩
      = some (data r c, j1, j2) := by
  have hR : 0 < R := by omega
  have hC : 0 < C := by omega
  rw [signedDistance_make hR hC]
  have hx : (ox + c * h - ox) / h = c := by field_simp; ring
  have hy : (oy + r * h - oy) / h = r := by field_simp; ring
  have hin : ¬ (Sdf.make ox oy h R C data bv).Out ⟨ox + c * h, oy + r * h⟩ := by
    rw [out_iff, not_not]
    have h1 : (c : ℝ) + 1 ≤ C := by exact_mod_cast hc
    have h2 : (r : ℝ) + 1 ≤ R := by exact_mod_cast hr
    have h3 : (0 : ℝ) ≤ c := Nat.cast_nonneg c
    have h4 : (0 : ℝ) ≤ r := Nat.cast_nonneg r
    refine ⟨?_, ?_, ?_, ?_⟩ <;> simp only <;> nlinarith
  simp only [if_neg hin, hx, hy]
  refine ⟨_, _, congrArg some (Prod.ext ?_ rfl)⟩
  simp only
  rw [interp1_node (fun k => ((⌊(c : ℝ)⌋ + 1 : ℤ) - (c : ℝ)) * data k (clamp ⌊(c : ℝ)⌋ C).toNat
    + ((c : ℝ) - ⌊(c : ℝ)⌋) * data k (clamp (⌊(c : ℝ)⌋ + 1) C).toNat) hr rfl]
  exact interp1_node (data r) hc rfl

/-- In every closed cell the distance is the bilinear interpolation of the values at its corners;
on the side shared by two cells both formulas hold. -/
theorem sdf_in_cell (hh : 0 < h) {r c : ℕ} (hr : r + 1 < R) (hc : c + 1 < C) {p : P2}
    (hp : InCell ox oy h r c p) :
    ∃ j1 j2, (Sdf.make ox oy h R C data bv).signedDistance p
      = some (bilinear data r c ((p.x - ox) / h - c) ((p.y - oy) / h - r), j1, j2) := by
  have hR : 0 < R := by omega
  have hC : 0 < C := by omega
  obtain ⟨hx1, hx2, hy1, hy2⟩ := hp
  rw [signedDistance_make hR hC]
  have hin : ¬ (Sdf.make ox oy h R C data bv).Out p := by
    rw [out_iff, not_not]
    have h1 : (c : ℝ) + 2 ≤ C := by exact_mod_cast hc
    have h2 : (r : ℝ) + 2 ≤ R := by exact_mod_cast hr
    have h3 : (0 : ℝ) ≤ c := Nat.cast_nonneg c
    have h4 : (0 : ℝ) ≤ r := Nat.cast_nonneg r
    refine ⟨?_, ?_, ?_, ?_⟩ <;> nlinarith
  have a1 : (c : ℝ) ≤ (p.x - ox) / h := by rw [le_div_iff₀ hh]; linarith
  have a2 : (p.x - ox) / h ≤ c + 1 := by rw [div_le_iff₀ hh]; linarith
  have b1 : (r : ℝ) ≤ (p.y - oy) / h := by rw [le_div_iff₀ hh]; linarith
  have b2 : (p.y - oy) / h ≤ r + 1 := by rw [div_le_iff₀ hh]; linarith
  set x := (p.x - ox) / h with hxd
  set y := (p.y - oy) / h with hyd
  simp only [if_neg hin]
  refine ⟨_, _, congrArg some (Prod.ext ?_ rfl)⟩
  simp only
  rw [interp1 (fun k => ((⌊x⌋ + 1 : ℤ) - x) * data k (clamp ⌊x⌋ C).toNat
    + (x - ⌊x⌋) * data k (clamp (⌊x⌋ + 1) C).toNat) hr b1 b2]
  rw [interp1 (data r) hc a1 a2, interp1 (data (r + 1)) hc a1 a2]
  unfold bilinear
  ring

theorem exists_cell {N : ℕ} (hN : 2 ≤ N) {x : ℝ} (h0 : 0 ≤ x) (h1 : x ≤ (N : ℝ) - 1) :
    ∃ r : ℕ, r + 1 < N ∧ (r : ℝ) ≤ x ∧ x ≤ r + 1 := by
  rcases h1.lt_or_eq with h | h
  · refine ⟨⌊x⌋₊, ?_, Nat.floor_le h0, (Nat.lt_floor_add_one x).le⟩
    have : (⌊x⌋₊ : ℝ) < (N : ℝ) - 1 := lt_of_le_of_lt (Nat.floor_le h0) h
    have : ((⌊x⌋₊ + 1 : ℕ) : ℝ) < N := by push_cast; linarith
    exact_mod_cast this
  · refine ⟨N - 2, by omega, ?_, ?_⟩
    · rw [h, Nat.cast_sub hN]; push_cast; linarith
    · rw [h, Nat.cast_sub hN]; push_cast; linarith

/-- Every point of the rectangle is in some cell. -/
theorem inRect_cell (hh : 0 < h) (hR : 2 ≤ R) (hC : 2 ≤ C) {p : P2} (hp : InRect ox oy h R C p) :
    ∃ r c : ℕ, r + 1 < R ∧ c + 1 < C ∧ InCell ox oy h r c p := by
  obtain ⟨hx1, hx2, hy1, hy2⟩ := hp
  obtain ⟨c, hc, c1, c2⟩ := exists_cell hC (x := (p.x - ox) / h)
    (div_nonneg (by linarith) hh.le) (by rw [div_le_iff₀ hh]; linarith)
  obtain ⟨r, hr, r1, r2⟩ := exists_cell hR (x := (p.y - oy) / h)
    (div_nonneg (by linarith) hh.le) (by rw [div_le_iff₀ hh]; linarith)
  rw [le_div_iff₀ hh] at c1 r1
  rw [div_le_iff₀ hh] at c2 r2
  exact ⟨r, c, hr, hc, by linarith, by linarith, by linarith, by linarith⟩

/-- On the rectangle the distance stays between the smallest and the largest stored value. -/
theorem sdf_bounds (hh : 0 < h) (hR : 2 ≤ R) (hC : 2 ≤ C) {lo hi : ℝ}
    (hd : ∀ r < R, ∀ c < C, lo ≤ data r c ∧ data r c ≤ hi) {p : P2} (hp : InRect ox oy h R C p) :
    ∃ d j1 j2, (Sdf.make ox oy h R C data bv).signedDistance p = some (d, j1, j2) ∧
      lo ≤ d ∧ d ≤ hi := by
  obtain ⟨r, c, hr, hc, hcell⟩ := inRect_cell hh hR hC hp
  obtain ⟨j1, j2, e⟩ := sdf_in_cell (data := data) (bv := bv) hh hr hc hcell
  refine ⟨_, _, _, e, ?_⟩
  obtain ⟨hx1, hx2, hy1, hy2⟩ := hcell
  have a1 : 0 ≤ (p.x - ox) / h - c := by rw [sub_nonneg, le_div_iff₀ hh]; linarith
  have a2 : 0 ≤ 1 - ((p.x - ox) / h - c) := by
    have : (p.x - ox) / h ≤ c + 1 := by rw [div_le_iff₀ hh]; linarith
    linarith
  have b1 : 0 ≤ (p.y - oy) / h - r := by rw [sub_nonneg, le_div_iff₀ hh]; linarith
  have b2 : 0 ≤ 1 - ((p.y - oy) / h - r) := by
    have : (p.y - oy) / h ≤ r + 1 := by rw [div_le_iff₀ hh]; linarith
    linarith
  set u := (p.x - ox) / h - c
  set v := (p.y - oy) / h - r
  have d1 := hd r (by omega) c (by omega)
  have d2 := hd r (by omega) (c + 1) hc
  have d3 := hd (r + 1) hr c (by omega)
  have d4 := hd (r + 1) hr (c + 1) hc
  have mix : ∀ {t a b : ℝ}, 0 ≤ t → 0 ≤ 1 - t → lo ≤ a ∧ a ≤ hi → lo ≤ b ∧ b ≤ hi →
      lo ≤ (1 - t) * a + t * b ∧ (1 - t) * a + t * b ≤ hi := by
    intro t a b ht ht' ha hb
    constructor <;> nlinarith
  exact mix b1 b2 (mix a1 a2 d1 d2) (mix a1 a2 d3 d4)

/-- Outside the rectangle the distance is the boundary value and the Jacobian is zero. -/
theorem sdf_outside (hR : 0 < R) (hC : 0 < C) {p : P2}
    (hp : ¬ InRect ox oy h R C p) :
    (Sdf.make ox oy h R C data bv).signedDistance p = some (bv, 0, 0) := by
  rw [signedDistance_make hR hC]
  simp only
  rw [if_pos ((out_iff p).mpr hp)]

/-- The Jacobian: strictly inside a cell, and strictly outside the rectangle, the two numbers
returned with the distance are its partial derivatives, along every curve. -/
theorem sdf_jac (hh : 0 < h) (hR : 0 < R) (hC : 0 < C) {p : P2}
    (hp : (∃ r c : ℕ, r + 1 < R ∧ c + 1 < C ∧ InOpenCell ox oy h r c p) ∨
      ¬ InRect ox oy h R C p) :
    ∃ d j1 j2, (Sdf.make ox oy h R C data bv).signedDistance p = some (d, j1, j2) ∧
      ∀ (x y : ℝ → ℝ) (dx dy : ℝ), x 0 = p.x → y 0 = p.y → HasDerivAt x dx 0 → HasDerivAt y dy 0 →
        HasDerivAt (fun t => dist (Sdf.make ox oy h R C data bv) ⟨x t, y t⟩) (j1 * dx + j2 * dy) 0 := by
  rcases hp with ⟨r, c, hr, hc, hcell⟩ | hout
  · obtain ⟨hx1, hx2, hy1, hy2⟩ := hcell
    have hcl : InCell ox oy h r c p := ⟨hx1.le, hx2.le, hy1.le, hy2.le⟩
    have a1 : (c : ℝ) < (p.x - ox) / h := by rw [lt_div_iff₀ hh]; linarith
    have a2 : (p.x - ox) / h < c + 1 := by rw [div_lt_iff₀ hh]; linarith
    have b1 : (r : ℝ) < (p.y - oy) / h := by rw [lt_div_iff₀ hh]; linarith
    have b2 : (p.y - oy) / h < r + 1 := by rw [div_lt_iff₀ hh]; linarith
    have hfx : ⌊(p.x - ox) / h⌋ = (c : ℤ) := by
      rw [Int.floor_eq_iff]; push_cast; exact ⟨a1.le, a2⟩
    have hfy : ⌊(p.y - oy) / h⌋ = (r : ℤ) := by
      rw [Int.floor_eq_iff]; push_cast; exact ⟨b1.le, b2⟩
    have hin : ¬ (Sdf.make ox oy h R C data bv).Out p := by
      rw [out_iff, not_not]
      have h1 : (c : ℝ) + 2 ≤ C := by exact_mod_cast hc
      have h2 : (r : ℝ) + 2 ≤ R := by exact_mod_cast hr
      have h3 : (0 : ℝ) ≤ c := Nat.cast_nonneg c
      have h4 : (0 : ℝ) ≤ r := Nat.cast_nonneg r
      refine ⟨?_, ?_, ?_, ?_⟩ <;> nlinarith
    have c1 : (clamp (c : ℤ) C).toNat = c := by unfold clamp; omega
    have c2 : (clamp ((c : ℤ) + 1) C).toNat = c + 1 := by unfold clamp; omega
    have r1 : (clamp (r : ℤ) R).toNat = r := by unfold clamp; omega
    have r2 : (clamp ((r : ℤ) + 1) R).toNat = r + 1 := by unfold clamp; omega
    rw [signedDistance_make hR hC]
    simp only [if_neg hin, hfx, hfy, c1, c2, r1, r2]
    refine ⟨_, _, _, rfl, ?_⟩
    intro x y dx dy hx hy hdx hdy
    have key : (fun t => bilinear data r c ((x t - ox) / h - c) ((y t - oy) / h - r))
        =ᶠ[nhds 0] fun t => dist (Sdf.make ox oy h R C data bv) ⟨x t, y t⟩ := by
      have ex := hdx.continuousAt.eventually (Ioo_mem_nhds (a := ox + c * h) (b := ox + (c + 1) * h)
        (by rw [hx]; exact hx1) (by rw [hx]; exact hx2))
      have ey := hdy.continuousAt.eventually (Ioo_mem_nhds (a := oy + r * h) (b := oy + (r + 1) * h)
        (by rw [hy]; exact hy1) (by rw [hy]; exact hy2))
      filter_upwards [ex, ey] with t htx hty
      obtain ⟨j1, j2, e⟩ := sdf_in_cell (R := R) (C := C) (data := data) (bv := bv) hh hr hc
        (p := ⟨x t, y t⟩) ⟨htx.1.le, htx.2.le, hty.1.le, hty.2.le⟩
      simp [dist, e]
    refine HasDerivAt.congr_of_eventuallyEq ?_ key.symm
    have hu : HasDerivAt (fun t => (x t - ox) / h - c) (dx / h) 0 :=
      ((hdx.sub_const ox).div_const h).sub_const _
    have hv : HasDerivAt (fun t => (y t - oy) / h - r) (dy / h) 0 :=
      ((hdy.sub_const oy).div_const h).sub_const _
    have h1 := ((hu.const_sub 1).mul_const (data r c)).fun_add (hu.mul_const (data r (c + 1)))
    have h2 := ((hu.const_sub 1).mul_const (data (r + 1) c)).fun_add
      (hu.mul_const (data (r + 1) (c + 1)))
    have h3 := ((hv.const_sub 1).fun_mul h1).fun_add (hv.fun_mul h2)
    refine h3.congr_deriv ?_
    simp only [hx, hy]
    push_cast
    field_simp
    ring
  · refine ⟨_, _, _, sdf_outside hR hC hout, ?_⟩
    intro x y dx dy hx hy hdx hdy
    have key : (fun _ => bv) =ᶠ[nhds 0]
        fun t => dist (Sdf.make ox oy h R C data bv) ⟨x t, y t⟩ := by
      have ev : ∀ᶠ t in nhds 0, ¬ InRect ox oy h R C ⟨x t, y t⟩ := by
        simp only [InRect, not_and_or, not_le] at hout ⊢
        rcases hout with hh1 | hh1 | hh1 | hh1
        · filter_upwards [hdx.continuousAt.eventually (Iio_mem_nhds (by rw [hx]; exact hh1))] with t ht
          exact Or.inl ht
        · filter_upwards [hdx.continuousAt.eventually (Ioi_mem_nhds (by rw [hx]; exact hh1))] with t ht
          exact Or.inr (Or.inl ht)
        · filter_upwards [hdy.continuousAt.eventually (Iio_mem_nhds (by rw [hy]; exact hh1))] with t ht
          exact Or.inr (Or.inr (Or.inl ht))
        · filter_upwards [hdy.continuousAt.eventually (Ioi_mem_nhds (by rw [hy]; exact hh1))] with t ht
          exact Or.inr (Or.inr (Or.inr ht))
      filter_upwards [ev] with t ht
      simp [dist, sdf_outside hR hC ht]
    refine HasDerivAt.congr_of_eventuallyEq ?_ key.symm
    simpa using hasDerivAt_const (0 : ℝ) bv

/-- On the rectangle, with its sides, the distance is continuous. -/
theorem sdf_continuous (hh : 0 < h) (hR : 2 ≤ R) (hC : 2 ≤ C) :
    ContinuousOn (fun q : ℝ × ℝ => dist (Sdf.make ox oy h R C data bv) ⟨q.1, q.2⟩)
      {q | InRect ox oy h R C ⟨q.1, q.2⟩} := by
  let cell : Fin (R - 1) × Fin (C - 1) → Set (ℝ × ℝ) :=
    fun k => {q | InCell ox oy h k.1 k.2 ⟨q.1, q.2⟩}
  have hcov : {q : ℝ × ℝ | InRect ox oy h R C ⟨q.1, q.2⟩} ⊆ ⋃ k, cell k := by
    intro q hq
    obtain ⟨r, c, hr, hc, hcell⟩ := inRect_cell hh hR hC hq
    exact Set.mem_iUnion.mpr ⟨(⟨r, by omega⟩, ⟨c, by omega⟩), hcell⟩
  refine ContinuousOn.mono ?_ hcov
  refine LocallyFinite.continuousOn_iUnion (locallyFinite_of_finite cell) ?_ ?_
  · intro k
    have : cell k = {q : ℝ × ℝ | ox + (k.2 : ℕ) * h ≤ q.1} ∩ {q | q.1 ≤ ox + ((k.2 : ℕ) + 1) * h} ∩
        {q | oy + (k.1 : ℕ) * h ≤ q.2} ∩ {q | q.2 ≤ oy + ((k.1 : ℕ) + 1) * h} := by
      ext q; simp [cell, InCell, and_assoc]
    rw [this]
    exact (((isClosed_le continuous_const continuous_fst).inter
      (isClosed_le continuous_fst continuous_const)).inter
      (isClosed_le continuous_const continuous_snd)).inter
      (isClosed_le continuous_snd continuous_const)
  · intro k
    have hc : ContinuousOn (fun q : ℝ × ℝ => bilinear data k.1 k.2 ((q.1 - ox) / h - (k.2 : ℕ))
        ((q.2 - oy) / h - (k.1 : ℕ))) (cell k) := by
      unfold bilinear
      fun_prop
    refine hc.congr fun q hq => ?_
    obtain ⟨j1, j2, e⟩ := sdf_in_cell (R := R) (C := C) (data := data) (bv := bv) hh
      (r := k.1) (c := k.2) (by omega) (by omega) (p := ⟨q.1, q.2⟩) hq
    simp [dist, e]

/-- **A defect.**  `update_data` with data of another size leaves the recorded size as it was.  If
the new data has fewer rows, every point above the top row of the new data raises an
`AssertionError` instead of returning the boundary value. -/
theorem sdf_update_smaller_raises {ox' oy' h' : ℝ} {R' C' : ℕ} {data' : ℕ → ℕ → ℝ} (hh : 0 < h')
    (hR' : 0 < R') (hlt : R' < R) {p : P2} (hp : p.y > oy' + ((R' : ℝ) - 1) * h') :
    ((Sdf.make ox oy h R C data bv).updateData ox' oy' h' R' C' data').signedDistance p = none := by
  have h1 : ((R' - 1 : ℕ) : ℝ) ≤ (p.y - oy') / h' := by
    rw [le_div_iff₀ hh, Nat.cast_sub hR']; push_cast; linarith
  have h2 : ((R' - 1 : ℕ) : ℤ) ≤ ⌊(p.y - oy') / h'⌋ := by
    rw [Int.le_floor]; exact_mod_cast h1
  have hcl : ¬ (clamp (⌊(p.y - oy') / h'⌋ + 1) R < R') := by unfold clamp; omega
  set s := (Sdf.make ox oy h R C data bv).updateData ox' oy' h' R' C' data' with hs
  have e1 : s.numRows = R := rfl
  have e3 : s.row p = (p.y - oy') / h' := rfl
  have hg : ∀ j, s.gather (clamp (⌊(p.y - oy') / h'⌋ + 1) R) j = none := by
    intro j
    have : s.dRows = R' := rfl
    simp [gather, this, hcl]
  simp only [signedDistance, e1, e3, hg, Option.bind_eq_bind, Option.bind_none]
  cases s.gather (clamp ⌊(p.y - oy') / h'⌋ R) (clamp ⌊s.col p⌋ s.numCols) <;> simp

/-- **A defect.**  If the new data is larger, the part of it beyond the old size is ignored: points
there get the boundary value. -/
theorem sdf_update_larger_ignored {ox' oy' h' : ℝ} {R' C' : ℕ} {data' : ℕ → ℕ → ℝ} (hR : 0 < R)
    (hC : 0 < C) (hR' : R ≤ R') (hC' : C ≤ C') {p : P2} (hp : ¬ InRect ox' oy' h' R C p) :
    ((Sdf.make ox oy h R C data bv).updateData ox' oy' h' R' C' data').signedDistance p
      = some (bv, 0, 0) := by
  set s := (Sdf.make ox oy h R C data bv).updateData ox' oy' h' R' C' data' with hs
  have hg : ∀ i j, s.gather (clamp i s.numRows) (clamp j s.numCols)
      = some (data' (clamp i R).toNat (clamp j C).toNat) := by
    intro i j
    have h1 := clamp_range i hR
    have h2 := clamp_range j hC
    have e1 : s.dRows = R' := rfl
    have e2 : s.dCols = C' := rfl
    have e3 : s.numRows = R := rfl
    have e4 : s.numCols = C := rfl
    have e5 : s.data = data' := rfl
    simp only [gather, e1, e2, e3, e4, e5]
    rw [if_pos]
    omega
  have hout : s.Out p := by
    simp only [InRect, not_and_or, not_le] at hp
    exact hp
  have hb : s.bv = bv := rfl
  simp only [signedDistance, hg, Option.bind_eq_bind, Option.bind_some, if_pos hout, hb]
  rfl

/-- **A defect.**  At the right and top sides of the rectangle the Jacobian is zero in the direction
across the side, although the distance may change there; e.g. for a field that is `0` on the left
column and `1` on the right one. -/
theorem sdf_edge_jac :
    (Sdf.make 0 0 1 2 2 (fun _ c => c) 0).signedDistance ⟨1, 1 / 2⟩ = some (1, 0, 0) ∧
    ∀ x : ℝ, 0 ≤ x → x ≤ 1 → dist (Sdf.make 0 0 1 2 2 (fun _ c => c) 0) ⟨x, 1 / 2⟩ = x := by
  constructor
  · rw [signedDistance_make (by norm_num) (by norm_num)]
    have : ¬ (Sdf.make 0 0 1 2 2 (fun _ c => (c : ℝ)) 0).Out ⟨1, 1 / 2⟩ := by
      rw [out_iff, not_not]
      norm_num [InRect]
    have f1 : ⌊(1 / 2 : ℝ)⌋ = 0 := by norm_num [Int.floor_eq_iff]
    simp only [if_neg this, sub_zero, div_one, f1, Int.floor_one]
    norm_num [clamp]
  · intro x h0 h1
    obtain ⟨j1, j2, e⟩ := sdf_in_cell (R := 2) (C := 2) (ox := 0) (oy := 0) (h := 1)
      (data := fun _ c => (c : ℝ)) (bv := 0) one_pos (r := 0) (c := 0) (by norm_num) (by norm_num)
      (p := ⟨x, 1 / 2⟩) (by norm_num [InCell, h0, h1])
    simp only [dist, e, bilinear]
    norm_num
    ring

/-! Non-vacuity: a field on three rows and four columns, cells of size 1/2. -/

example : InRect 1 1 (1 / 2) 3 4 ⟨2, 2⟩ ∧ InCell 1 1 (1 / 2) 1 2 ⟨2, 2⟩ ∧
    InOpenCell 1 1 (1 / 2) 1 2 ⟨9 / 4, 7 / 4⟩ ∧ ¬ InRect 1 1 (1 / 2) 3 4 ⟨3, 2⟩ := by
  norm_num [InRect, InCell, InOpenCell]

example : ∃ j1 j2, (Sdf.make 1 1 (1 / 2) 3 4 (fun r c => r * c) 0).signedDistance ⟨5 / 2, 2⟩
    = some (6, j1, j2) := by
  obtain ⟨j1, j2, e⟩ := sdf_at_node (ox := 1) (oy := 1) (h := 1 / 2) (R := 3) (C := 4)
    (data := fun r c => (r : ℝ) * c) (bv := 0) (by norm_num) (r := 2) (c := 3) (by norm_num)
    (by norm_num)
  refine ⟨j1, j2, ?_⟩
  norm_num at e ⊢
  exact e

end Verif.Embodied
