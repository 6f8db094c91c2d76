import Verif.Ext.BaspachoForwardProps

/-!
# The contract of BaSpaCho can be met (C91)

For any sizes and block structure: the dense layout in the given order, with an exact solve.  A small
layout in another order, where blocks are flipped, is also shown.
-/

namespace Verif.Ext
open Verif.Linear Verif.Autograd Matrix

/-- The start of block `p`. -/
def denseStart (sizes : List ℕ) (p : ℕ) : ℕ := (sizes.take p).sum

/-- A dense square matrix in the order of the columns. -/
def denseAccessor (sizes : List ℕ) : Accessor where
  dataSize := sizes.sum * sizes.sum
  order := sizes.sum
  blockOffset r c := (denseStart sizes (max r c) * sizes.sum + denseStart sizes (min r c), sizes.sum,
    decide (r < c))
  diagBlock p := (denseStart sizes p * sizes.sum + denseStart sizes p, sizes.sum)
  paramStart := denseStart sizes

theorem denseStart_locate {sizes : List ℕ} {p a : ℕ} (hp : p < sizes.length) (ha : a < at' sizes p) :
    denseStart sizes p + a < sizes.sum ∧ locate sizes (denseStart sizes p + a) = (p, a) := by
  obtain ⟨c, hc, e⟩ := locate_surj hp ha
  have := locate_eq hc
  rw [e] at this
  unfold denseStart
  rw [this]
  exact ⟨hc, e⟩

/-- The dense layout meets the contract. -/
def denseContract (sizes : List ℕ) (P : CsrArr) : Contract (denseAccessor sizes) sizes P where
  perm := id
  stored := fun _ _ => True
  order := rfl
  perm_inj := fun _ _ _ _ h => h
  stored_of := fun _ _ _ _ => trivial
  stored_symm := fun _ _ _ => trivial
  flip := fun _ _ _ _ _ => rfl
  swap := fun r c _ _ _ => by
    simp [denseAccessor, max_comm, min_comm]
  diag := fun p _ _ => by simp [denseAccessor]
  bound := fun r c a b hr hc _ h ha hb => by
    have h1 := (denseStart_locate hr ha).1
    have h2 := (denseStart_locate hc hb).1
    simp only [denseAccessor, id] at h ⊢
    rw [max_eq_left h, min_eq_right h]
    nlinarith
  inj := fun r c a b r' c' a' b' hr hc _ h ha hb hr' hc' _ h' ha' hb' e => by
    obtain ⟨h1, l1⟩ := denseStart_locate hr ha
    obtain ⟨h2, l2⟩ := denseStart_locate hc hb
    obtain ⟨h3, l3⟩ := denseStart_locate hr' ha'
    obtain ⟨h4, l4⟩ := denseStart_locate hc' hb'
    simp only [denseAccessor, id] at h h' e
    rw [max_eq_left h, min_eq_right h, max_eq_left h', min_eq_right h'] at e
    obtain ⟨e1, e2⟩ := mul_add_inj (a := denseStart sizes r + a) (b := denseStart sizes r' + a') h2 h4
      (by nlinarith)
    rw [e1, l3] at l1
    rw [e2, l4] at l2
    simp only [Prod.mk.injEq] at l1 l2
    exact ⟨l1.1.symm, l2.1.symm, l1.2.symm, l2.2.symm⟩
  start_lt := fun p a hp ha => (denseStart_locate hp ha).1
  start_inj := fun p a p' a' hp ha hp' ha' e => by
    have l1 := (denseStart_locate hp ha).2
    have l2 := (denseStart_locate hp' ha').2
    have e' : denseStart sizes p + a = denseStart sizes p' + a' := e
    rw [e', l2] at l1
    simp only [Prod.mk.injEq] at l1
    exact ⟨l1.1.symm, l1.2.symm⟩

open Classical in
/-- An exact solve, for any layout that meets the contract. -/
noncomputable def exactSolve {A : Accessor} {sizes : List ℕ} {P : CsrArr} (K : Contract A sizes P)
    (d v : ℕ → ℝ) : ℕ → ℝ := fun k =>
  if h : ∃ i : Fin sizes.sum, A.pos sizes i = k then
    solveWith (K.matrix d) (fun c => v (A.pos sizes c)) h.choose else 0

/-- It does what is assumed about the library. -/
theorem exact_solves {A : Accessor} {sizes : List ℕ} {P : CsrArr} (K : Contract A sizes P) :
    K.Solves (exactSolve K) := by
  intro d v hpd i
  have hinj : ∀ i j : Fin sizes.sum, A.pos sizes i = A.pos sizes j → i = j := by
    intro i j h
    obtain ⟨h1, h2⟩ := K.start_inj _ _ _ _ (locate_fst_lt i.2) (locate_snd_lt i.2)
      (locate_fst_lt j.2) (locate_snd_lt j.2) h
    exact Fin.ext (locate_inj (Prod.ext h1 h2))
  have hs : ∀ j : Fin sizes.sum, exactSolve K d v (A.pos sizes j)
      = solveWith (K.matrix d) (fun c => v (A.pos sizes c)) j := by
    intro j
    have h : ∃ i : Fin sizes.sum, A.pos sizes i = A.pos sizes j := ⟨j, rfl⟩
    unfold exactSolve
    rw [dif_pos h, hinj _ _ h.choose_spec]
  have hu : IsUnit (K.matrix d).det := isUnit_iff_ne_zero.2 hpd.det_pos.ne'
  simp only [hs, solveWith_fin]
  have := congrFun (Matrix.mulVec_mulVec (fun k : Fin sizes.sum => v (A.pos sizes k))
    (K.matrix d) (K.matrix d)⁻¹) i
  rw [Matrix.mul_nonsing_inv _ hu, Matrix.one_mulVec] at this
  exact this

/-- Two variables of sizes 1 and 2, three rows; the second variable comes first in the order of the
library, so that the block of the two is flipped. -/
def flipAccessor : Accessor where
  dataSize := 9
  order := 3
  blockOffset r c := match r, c with
    | 0, 0 => (8, 3, false)
    | 0, 1 => (6, 3, false)
    | 1, 0 => (6, 3, true)
    | _, _ => (0, 3, false)
  diagBlock p := if p = 0 then (8, 3) else (0, 3)
  paramStart p := if p = 0 then 2 else 0

/-- It meets the contract too. -/
def flipContract (P : CsrArr) (hP : P.Legal 2) (hn : P.numRows = 2) : Contract flipAccessor [1, 2] P where
  perm := fun p => 1 - p
  stored := fun r c => r < 2 ∧ c < 2
  order := rfl
  perm_inj := fun r c hr hc h => by simp at hr hc; omega
  stored_of := fun r c hr ⟨s, hs, e⟩ => by
    simp only [List.length_cons, List.length_nil] at hr
    exact ⟨by omega, e ▸ InRow.col_lt hP (by omega) hs⟩
  stored_symm := fun _ _ h => ⟨h.2, h.1⟩
  flip := fun r c hr hc _ => by
    simp at hr hc
    interval_cases r <;> interval_cases c <;> rfl
  swap := fun r c hr hc _ => by
    simp at hr hc
    interval_cases r <;> interval_cases c <;> exact ⟨rfl, rfl⟩
  diag := fun p hp _ => by
    simp at hp
    interval_cases p <;> rfl
  bound := fun r c a b hr hc _ h ha hb => by
    simp at hr hc
    interval_cases r <;> interval_cases c <;> simp [flipAccessor, at'] at * <;> omega
  inj := fun r c a b r' c' a' b' hr hc _ h ha hb hr' hc' _ h' ha' hb' e => by
    simp at hr hc hr' hc'
    interval_cases r <;> interval_cases c <;> interval_cases r' <;> interval_cases c' <;>
      simp [flipAccessor, at'] at * <;> omega
  start_lt := fun p a hp ha => by
    simp at hp
    interval_cases p <;> simp [flipAccessor, at'] at * <;> omega
  start_inj := fun p a p' a' hp ha hp' ha' e => by
    simp at hp hp'
    interval_cases p <;> interval_cases p' <;> simp [flipAccessor, at'] at * <;> omega

/-- Three rows, three columns: `[[x, y, z], [0, u, v], [w, 0, 0]]`. -/
def bspM : CsrArr := ⟨[0, 3, 5, 6], [0, 1, 2, 1, 2, 0]⟩

theorem bspM_legal : bspM.Legal [1, 2].sum := ⟨rfl, rfl, by decide, rfl, by decide⟩

theorem bspM_sorted : bspM.Sorted := by
  intro i hi p q hp hq hpq
  have h1 : ∀ i < 3, at' bspM.rowPtr (i + 1) ≤ 6 := by decide
  have hi' : i < 3 := hi
  have h2 := h1 i hi'
  have hq2 := hq.2
  have hp2 := hp.2
  have key : ∀ i : Fin 3, ∀ p q : Fin 6, at' bspM.rowPtr i ≤ p ∧ q < at' bspM.rowPtr (i + 1) ∧ p < q →
      at' bspM.colInd p < at' bspM.colInd q := by decide
  exact key ⟨i, hi'⟩ ⟨p, by omega⟩ ⟨q, by omega⟩ ⟨hp.1, hq2, hpq⟩

theorem bspM_columns : ColumnsStored bspM [1, 2].sum := by
  intro j hj
  have : j = 0 ∨ j = 1 ∨ j = 2 := by simp at hj; omega
  rcases this with rfl | rfl | rfl
  · exact ⟨0, by decide, 0, ⟨by decide, by decide⟩, by decide⟩
  · exact ⟨0, by decide, 1, ⟨by decide, by decide⟩, by decide⟩
  · exact ⟨0, by decide, 2, ⟨by decide, by decide⟩, by decide⟩

theorem bspM_pattern : blockPattern (cumStarts 0 [1, 2]) [1, 2].sum bspM = ⟨[0, 2, 4], [0, 1, 0, 1]⟩ := by
  decide +kernel

/-- The flipped layout for this matrix. -/
def bspK : Contract flipAccessor [1, 2] (blockPattern (cumStarts 0 [1, 2]) [1, 2].sum bspM) :=
  flipContract _ (by rw [bspM_pattern]; exact ⟨rfl, rfl, by decide, rfl, by decide⟩)
    (by rw [bspM_pattern]; rfl)

/-- The hypotheses of the forward theorems hold: a batch of two elements, damped, in a layout that the
library permutes; both devices return the solution, and it is the same. -/
example : ∃ S x y, bspSymbolic (fun _ _ => flipAccessor) (cumStarts 0 [1, 2]) [1, 2] [1, 2].sum bspM
      = .ok S ∧
    bspForwardCpu S (exactSolve bspK) 2 bspM [1, 2].sum ⟨2, 6, fun a => a + 1⟩ ⟨2, 3, fun a => a⟩
      (some (fun _ => 0, fun _ => 1)) (fun _ => 77) = .ok x ∧
    BspForwardGpu S (exactSolve bspK) 2 bspM [1, 2].sum ⟨2, 6, fun a => a + 1⟩ ⟨2, 3, fun a => a⟩
      (some (fun _ => 0, fun _ => 1)) y ∧
    ∀ k < 2, ∀ j < 3, x (k * 3 + j) = y (k * 3 + j) ∧
      x (k * 3 + j) = forward (bspM.pattern 3) 0 1 (fun p => (k * 6 + p : ℕ) + 1)
        (fun r => (k * 3 + r : ℕ)) j := by
  have hl : ([1, 2] : List ℕ).length
      = (blockPattern (cumStarts 0 [1, 2]) [1, 2].sum bspM).rowPtr.length - 1 := by
    rw [blockPattern_rows]; rfl
  obtain ⟨S, hS⟩ : ∃ S, bspSymbolic (fun _ _ => flipAccessor) (cumStarts 0 [1, 2]) [1, 2] [1, 2].sum
      bspM = .ok S := by
    unfold bspSymbolic symbolic
    rw [if_neg (not_not.2 hl)]
    exact ⟨_, rfl⟩
  have hA := (symbolic_built hS).2
  obtain ⟨x, hx⟩ := bsp_cpu_exists (sizes := [1, 2]) (M := bspM) (S := S) (by rw [hA]; rfl) bspM_legal
    (exactSolve bspK) (B := 2) ⟨2, 6, fun a => a + 1⟩ ⟨2, 3, fun a => a⟩ rfl rfl
    (some (fun _ => 0, fun _ => 1)) fun _ => 77
  obtain ⟨y, hy⟩ := bsp_gpu_exists (sizes := [1, 2]) (M := bspM) S
    (exactSolve bspK) (B := 2) (by decide) ⟨2, 6, fun a => a + 1⟩ ⟨2, 3, fun a => a⟩ rfl rfl rfl rfl
    (some (fun _ => 0, fun _ => 1))
  refine ⟨S, x, y, hS, hx, hy, fun k hk j hj => ⟨?_, ?_⟩⟩
  · exact bsp_devices_agree (create := fun _ _ => flipAccessor) (create' := fun _ _ => flipAccessor) bspK
      bspK (exact_solves _) (exact_solves _) bspM_legal bspM_sorted bspM_columns hS hS _ _
      (fun _ _ => le_rfl) (fun _ _ => one_pos) hx hy hk hj
  · exact bsp_forward_cpu (create := fun _ _ => flipAccessor) bspK (exact_solves _) bspM_legal bspM_sorted
      hS _ _ (fun _ => bspM_columns) hx hk hj (normal_posDef _ le_rfl one_pos _)

/-- With an unsorted row the products of a block go to the wrong place: the order of the columns is
needed.  Here the entry above the diagonal of a block of size two is written, which the library does
not read, and the entry below is missing. -/
theorem bsp_needs_sorted : ∃ (S : Symbolic) (M : CsrArr) (val : Ten ℤ) (data : ℕ → ℤ),
    Built S [2] ∧ S.acc = denseAccessor [2] ∧ M.Legal 2 ∧
    cpuAddMtM S 1 (fun _ => 0) M val = .ok data ∧
    (denseContract [2] ⟨[0, 1], [0]⟩).entry (item 4 data 0) 1 0 = 0 ∧
    ∑ q ∈ Finset.range M.numRows, M.mat val.data 0 q 1 * M.mat val.data 0 q 0 = 1 := by
  refine ⟨⟨denseAccessor [2], [0, 0], [0], [2]⟩, ⟨[0, 2], [1, 0]⟩, ⟨1, 2, fun _ => 1⟩, _,
    ?_, rfl, ⟨rfl, rfl, by decide, rfl, by decide⟩, rfl, ?_, ?_⟩
  · exact (symbolic_built (create := fun s _ => denseAccessor s) (sizes := [2]) (P := ⟨[0, 1], [0]⟩)
      (S := ⟨denseAccessor [2], [0, 0], [0], [2]⟩) rfl).1
  · unfold Contract.entry
    rw [if_pos (show (denseContract [2] ⟨[0, 1], [0]⟩).stored _ _ from trivial)]
    rfl
  · decide +kernel

end Verif.Ext
