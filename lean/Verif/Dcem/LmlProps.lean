import Verif.Dcem.LmlLemmas
import Mathlib.Analysis.SpecialFunctions.BinaryEntropy

/-!
# The limited multi-label projection (C67)

Specification: `nu` is the exact shift for `x` and `N` when the weights `sigmoid (x_i + nu)` sum to
`N`.  The weights at the exact shift are the maximiser of `x · z + entropy z` over
`0 ≤ z ≤ 1, Σ z = N` (`lml_optimal`).
-/

namespace Verif.Dcem
open Real Filter Topology

/-- The exact shift. -/
def IsShift (x : List ℝ) (N : ℕ) (nu : ℝ) : Prop := (x.map fun u => sigmoid (u + nu)).sum = N

/-- The result of the search is within half the tolerance of the (unique) exact shift. -/
theorem lml_forward {N branch n_iter : ℕ} {eps : ℝ} {x : List ℝ} (hN : 1 ≤ N) (hlen : N < x.length)
    (h1 : (N : ℝ) < exp 7) (h2 : (x.length : ℝ) - N < exp 7) (hb : 2 ≤ branch) (hn : 1 ≤ n_iter)
    (hw : (sortDesc x).getD (N - 1) 0 - (sortDesc x).getD N 0 + 14
      ≤ eps * (branch - 1 : ℝ) ^ (n_iter - 1)) :
    ∃ nu nuStar, lml N branch n_iter eps x = some (x.map fun u => sigmoid (u + nu)) ∧
      IsShift x N nuStar ∧ (∀ nu', IsShift x N nu' → nu' = nuStar) ∧ |nu - nuStar| ≤ eps / 2 := by
  have hx : x ≠ [] := by rintro rfl; simp at hlen
  have hB := initial_bracket hN hlen h1 h2
  obtain ⟨m, rfl⟩ : ∃ m, n_iter = m + 1 := ⟨n_iter - 1, by omega⟩
  obtain ⟨lo, hi, e1, hB', hwd⟩ := lmlLoop_bracket (eps := eps)
    (r := -(sortDesc x).getD N 0 + 7 - (-(sortDesc x).getD (N - 1) 0 - 7)) hx hb m hB
    (by
      rw [Nat.add_sub_cancel] at hw
      linarith)
  have hlt := hB'.lt hx
  obtain ⟨nuS, hS, hS0⟩ := intermediate_value_Icc hlt.le (lmlF_continuous x N).continuousOn
    (show (0 : ℝ) ∈ Set.Icc (lmlF x N lo) (lmlF x N hi) from ⟨hB'.lo.le, hB'.hi⟩)
  refine ⟨(lo + hi) / 2, nuS, ?_, ?_, ?_, ?_⟩
  · rw [lml, if_neg (by omega)]
    simp only
    rw [e1]
  · unfold IsShift; unfold lmlF at hS0; linarith
  · intro nu' h'
    apply (lmlF_strictMono hx N).injective
    rw [hS0]
    unfold lmlF
    unfold IsShift at h'
    linarith
  · rw [abs_le]
    constructor <;> linarith [hS.1, hS.2]

theorem exp_seven_gt : (1000 : ℝ) < exp 7 := by
  have h := Real.exp_one_gt_d9
  have : exp 7 = exp 1 ^ 7 := by rw [← Real.exp_nat_mul]; norm_num
  rw [this]
  calc (1000 : ℝ) < 2.7182818283 ^ 7 := by norm_num
    _ ≤ exp 1 ^ 7 := by gcongr

/-- **C67 (observable effect).** For a row with more than `N` entries and at most a thousand, if the
iteration limit allows the initial interval to shrink to `eps`, the projection returns one weight
per entry, strictly between 0 and 1, larger for larger entries, summing to `N` up to
`length * eps / 8`, and each within `eps / 8` of the exact weight. -/
theorem lml_weights {N branch n_iter : ℕ} {eps : ℝ} {x : List ℝ} (hN : 1 ≤ N) (hlen : N < x.length)
    (hk : x.length ≤ 1000) (hb : 2 ≤ branch) (hn : 1 ≤ n_iter)
    (hw : (sortDesc x).getD (N - 1) 0 - (sortDesc x).getD N 0 + 14
      ≤ eps * (branch - 1 : ℝ) ^ (n_iter - 1)) :
    ∃ y nuStar, lml N branch n_iter eps x = some y ∧ y.length = x.length ∧ (∀ v ∈ y, 0 < v ∧ v < 1) ∧
      (∀ i j, i < x.length → j < x.length → (y.getD i 0 < y.getD j 0 ↔ x.getD i 0 < x.getD j 0)) ∧
      |y.sum - N| ≤ x.length * eps / 8 ∧ IsShift x N nuStar ∧
      ∀ i, i < x.length → |y.getD i 0 - sigmoid (x.getD i 0 + nuStar)| ≤ eps / 8 := by
  have hk' : (x.length : ℝ) ≤ 1000 := by exact_mod_cast hk
  have hN' : (N : ℝ) < x.length := by exact_mod_cast hlen
  have hN0 : (0 : ℝ) ≤ N := Nat.cast_nonneg N
  have h7 := exp_seven_gt
  obtain ⟨nu, nuS, e, hS, -, hd⟩ := lml_forward hN hlen (by linarith) (by linarith) hb hn hw
  have get : ∀ i, i < x.length →
      (x.map fun u => sigmoid (u + nu)).getD i 0 = sigmoid (x.getD i 0 + nu) := by
    intro i hi
    simp [List.getD, hi]
  refine ⟨_, nuS, e, by simp, ?_, ?_, ?_, hS, ?_⟩
  · intro v hv
    obtain ⟨u, _, rfl⟩ := List.mem_map.mp hv
    exact ⟨sigmoid_pos _, sigmoid_lt_one _⟩
  · intro i j hi hj
    rw [get i hi, get j hj, sigmoid_strictMono.lt_iff_lt]
    constructor <;> intro h <;> linarith
  · have := lmlF_lipschitz x N nu nuS
    have z : lmlF x N nuS = 0 := by unfold lmlF; unfold IsShift at hS; linarith
    rw [z, sub_zero] at this
    calc _ = |lmlF x N nu| := rfl
      _ ≤ _ := this
      _ ≤ x.length / 4 * (eps / 2) := by gcongr
      _ = _ := by ring
  · intro i hi
    rw [get i hi]
    have := sigmoid_lipschitz (x.getD i 0 + nu) (x.getD i 0 + nuS)
    rw [show x.getD i 0 + nu - (x.getD i 0 + nuS) = nu - nuS by ring] at this
    linarith

/-- With the defaults of the optimizer (`eps = 1e-3`, 100 iterations, 10 branches) any spread of the
entries below `10 ^ 80` is covered. -/
theorem lml_default_width {x : List ℝ} {N : ℕ}
    (h : (sortDesc x).getD (N - 1) 0 - (sortDesc x).getD N 0 ≤ 10 ^ 80) :
    (sortDesc x).getD (N - 1) 0 - (sortDesc x).getD N 0 + 14
      ≤ 1e-3 * (((10 : ℕ) : ℝ) - 1) ^ (100 - 1) := by
  have : (10 : ℝ) ^ 80 + 14 ≤ 1e-3 * (((10 : ℕ) : ℝ) - 1) ^ (100 - 1) := by norm_num
  linarith

theorem sortDesc_mem {x : List ℝ} {i : ℕ} (hi : i < x.length) : (sortDesc x).getD i 0 ∈ x := by
  have hl : i < (sortDesc x).length := by rw [(sortDesc_perm x).length_eq]; exact hi
  have : (sortDesc x).getD i 0 = (sortDesc x)[i] := by simp [List.getD, hl]
  rw [this]
  exact (sortDesc_perm x).mem_iff.mp (List.getElem_mem hl)

/-- Non-vacuity: four unequal entries, two elites, the default settings. -/
example : ∃ y, lml 2 10 100 1e-3 [3, 1, 2, 0] = some y ∧ |y.sum - 2| ≤ 1 / 2000 ∧
    y.getD 1 0 < y.getD 2 0 := by
  have m : ∀ i, i < 4 → (sortDesc [3, 1, 2, 0]).getD i 0 ∈ ([3, 1, 2, 0] : List ℝ) :=
    fun i hi => sortDesc_mem (by simpa using hi)
  have lo : ∀ v ∈ ([3, 1, 2, 0] : List ℝ), 0 ≤ v ∧ v ≤ 3 := by
    intro v hv
    simp only [List.mem_cons, List.not_mem_nil, or_false] at hv
    rcases hv with rfl | rfl | rfl | rfl <;> norm_num
  have hw : (sortDesc [3, 1, 2, 0]).getD (2 - 1) 0 - (sortDesc [3, 1, 2, 0]).getD 2 0 ≤ 10 ^ 80 := by
    have a := lo _ (m 1 (by norm_num))
    have b := lo _ (m 2 (by norm_num))
    have : (3 : ℝ) ≤ 10 ^ 80 := by norm_num
    linarith [a.2, b.1]
  obtain ⟨y, nu, e, -, -, ho, hs, -⟩ := lml_weights (N := 2) (branch := 10) (n_iter := 100)
    (eps := 1e-3) (x := [3, 1, 2, 0]) (by norm_num) (by simp) (by simp) (by norm_num) (by norm_num)
    (lml_default_width hw)
  refine ⟨y, e, ?_, (ho 1 2 (by simp) (by simp)).mpr (by simp)⟩
  simp only [List.length_cons, List.length_nil] at hs
  norm_num at hs ⊢
  exact hs

/-- A row with at most `N` entries: every weight is `1 - 1e-5`. -/
theorem lml_short {N branch n_iter : ℕ} {eps : ℝ} {x : List ℝ} (h : x.length ≤ N) :
    lml N branch n_iter eps x = some (List.replicate x.length (1 - 1e-5)) := by
  rw [lml, if_pos h, List.map_const', mul_one]

/-- Finding: the fixed margin of 7 is not enough when `N > e^7`: for `N + 1` equal entries the
index of the upper end falls outside the grid and the forward pass raises. -/
theorem lml_fails_large {N branch n_iter : ℕ} {eps c : ℝ} (hN : exp 7 < N) (hb : 2 ≤ branch)
    (hn : 1 ≤ n_iter) (he : eps < 14) : lml N branch n_iter eps (List.replicate (N + 1) c) = none := by
  classical
  obtain ⟨m, rfl⟩ : ∃ m, n_iter = m + 1 := ⟨n_iter - 1, by omega⟩
  have hNpos : 0 < N := by
    have : (0 : ℝ) < N := (exp_pos 7).trans hN
    exact_mod_cast this
  have hs : sortDesc (List.replicate (N + 1) c) = List.replicate (N + 1) c :=
    List.perm_replicate.mp (sortDesc_perm _)
  have g : ∀ i, i < N + 1 → (List.replicate (N + 1) c).getD i 0 = c := by
    intro i hi; simp [List.getD, hi]
  rw [lml, if_neg (by simp)]
  simp only
  rw [hs, g (N - 1) (by omega), g N (by omega), lmlLoop, if_pos (by linarith)]
  have key : lmlStep (List.replicate (N + 1) c) N branch (-c - 7) (-c + 7) = none := by
    have hbr : (0 : ℝ) < branch - 1 := by
      have : (2 : ℝ) ≤ branch := by exact_mod_cast hb
      linarith
    have hall : (List.range branch).filter (fun j => decide (lmlF (List.replicate (N + 1) c) N
        (lmlGrid branch (-c - 7) (-c + 7 - (-c - 7)) j) < 0)) = List.range branch := by
      rw [List.filter_eq_self]
      intro j hj
      rw [List.mem_range] at hj
      rw [decide_eq_true_eq]
      have hj' : (j : ℝ) / (branch - 1) ≤ 1 := by
        rw [div_le_one hbr]
        have : j + 1 ≤ branch := hj
        have : (j : ℝ) + 1 ≤ branch := by exact_mod_cast this
        linarith
      unfold lmlF lmlGrid
      rw [List.map_replicate, List.sum_replicate, nsmul_eq_mul]
      have hle : sigmoid (c + ((-c + 7 - (-c - 7)) * ((j : ℝ) / (branch - 1)) + (-c - 7)))
          ≤ sigmoid 7 := sigmoid_le (by linarith)
      have h7 : sigmoid 7 * (1 + exp 7) = exp 7 := by
        have := sigmoid_seven
        rw [sigmoid_neg] at this
        linarith
      have hs1 : sigmoid 7 < 1 := sigmoid_lt_one 7
      have : ((N : ℝ) + 1) * sigmoid 7 < N := by nlinarith
      push_cast
      nlinarith [Nat.cast_nonneg (α := ℝ) N]
    simp only [lmlStep]
    rw [hall, List.length_range, if_neg (by omega), if_neg (lt_irrefl _)]
  rw [key]

/-- Non-vacuity: the default settings with 2000 elites of 2001 samples. -/
example : lml 2000 10 100 1e-3 (List.replicate 2001 (0 : ℝ)) = none := by
  refine lml_fails_large ?_ (by norm_num) (by norm_num) (by norm_num)
  have h := Real.exp_one_lt_d9
  have : exp 7 = exp 1 ^ 7 := by rw [← Real.exp_nat_mul]; norm_num
  rw [this]
  calc exp 1 ^ 7 ≤ 2.7182818286 ^ 7 := by gcongr
    _ < _ := by norm_num

/-- The weights at the exact shift maximise `x · z + entropy z` among all weights between 0 and 1
with the same sum. -/
theorem lml_optimal {n N : ℕ} (x : Fin n → ℝ) {nu : ℝ} (hnu : ∑ i, sigmoid (x i + nu) = N)
    (z : Fin n → ℝ) (hz0 : ∀ i, 0 ≤ z i) (hz1 : ∀ i, z i ≤ 1) (hz : ∑ i, z i = N) :
    ∑ i, (x i * z i + binEntropy (z i))
      ≤ ∑ i, (x i * sigmoid (x i + nu) + binEntropy (sigmoid (x i + nu))) := by
  have key : ∀ i, (x i + nu) * z i + binEntropy (z i)
      ≤ (x i + nu) * sigmoid (x i + nu) + binEntropy (sigmoid (x i + nu)) := by
    intro i
    set a := x i + nu
    set y := sigmoid a with hy
    have y0 : 0 < y := sigmoid_pos a
    have y1 : 0 < 1 - y := by linarith [sigmoid_lt_one a]
    have hodds : a = log y - log (1 - y) := by
      have e1 : y = exp a * (1 - y) := by
        rw [hy, sigmoid_def, Real.exp_neg]
        field_simp
        ring
      have : log y = a + log (1 - y) := by
        conv_lhs => rw [e1]
        rw [Real.log_mul (exp_pos a).ne' y1.ne', log_exp]
      linarith
    have gibbs : ∀ p q : ℝ, 0 ≤ p → 0 < q → p * log q + p * log p⁻¹ ≤ q - p := by
      intro p q hp hq
      rcases hp.eq_or_lt with rfl | hp
      · simp; exact hq.le
      · have := Real.log_le_sub_one_of_pos (div_pos hq hp)
        rw [Real.log_div hq.ne' hp.ne'] at this
        rw [Real.log_inv]
        have h2 := mul_le_mul_of_nonneg_left this hp.le
        have h3 : p * (q / p - 1) = q - p := by field_simp
        linarith
    have g1 := gibbs (z i) y (hz0 i) y0
    have g2 := gibbs (1 - z i) (1 - y) (by linarith [hz1 i]) y1
    have ey : a * y + binEntropy y = -log (1 - y) := by
      rw [binEntropy, Real.log_inv, Real.log_inv, hodds]; ring
    rw [ey, binEntropy, hodds]
    linarith
  have := Finset.sum_le_sum fun i (_ : i ∈ Finset.univ) => key i
  have e1 : ∀ w : Fin n → ℝ, ∑ i, ((x i + nu) * w i + binEntropy (w i))
      = ∑ i, (x i * w i + binEntropy (w i)) + nu * ∑ i, w i := by
    intro w
    rw [Finset.mul_sum, ← Finset.sum_add_distrib]
    exact Finset.sum_congr rfl fun i _ => by ring
  rw [e1 z, e1 fun i => sigmoid (x i + nu), hz, hnu] at this
  linarith

/-- The backward pass is the derivative of the exact projection: along every differentiable curve of
inputs, the loss `g · y` changes at the rate `backward(g) · x'`. -/
theorem lml_backward {n N : ℕ} [NeZero n] (x : ℝ → Fin n → ℝ) (nu : ℝ → ℝ) (x' g : Fin n → ℝ) (t₀ : ℝ)
    (hx : ∀ i, HasDerivAt (fun t => x t i) (x' i) t₀)
    (hnu : ∀ t, ∑ i, sigmoid (x t i + nu t) = N) :
    HasDerivAt (fun t => ∑ i, g i * sigmoid (x t i + nu t))
      (∑ i, lmlBackward (fun i => sigmoid (x t₀ i + nu t₀)) g i * x' i) t₀ := by
  -- continuity of the shift
  have hbound : ∀ t, |nu t - nu t₀| ≤ ∑ i, |x t i - x t₀ i| := by
    intro t
    have hsum : ∑ i, sigmoid (x t i + nu t) = ∑ i, sigmoid (x t₀ i + nu t₀) := by
      rw [hnu t, hnu t₀]
    obtain ⟨i, -, hi⟩ := Finset.exists_le_of_sum_le (s := Finset.univ) Finset.univ_nonempty hsum.le
    obtain ⟨j, -, hj⟩ := Finset.exists_le_of_sum_le (s := Finset.univ) Finset.univ_nonempty hsum.ge
    have hi := sigmoid_strictMono.le_iff_le.mp hi
    have hj := sigmoid_strictMono.le_iff_le.mp hj
    have bi := Finset.single_le_sum (f := fun i => |x t i - x t₀ i|) (fun _ _ => abs_nonneg _)
      (Finset.mem_univ i)
    have bj := Finset.single_le_sum (f := fun i => |x t i - x t₀ i|) (fun _ _ => abs_nonneg _)
      (Finset.mem_univ j)
    rw [abs_le]
    constructor
    · linarith [le_abs_self (x t j - x t₀ j)]
    · linarith [neg_abs_le (x t i - x t₀ i)]
  have hnuc : Tendsto nu (𝓝 t₀) (𝓝 (nu t₀)) := by
    rw [tendsto_iff_norm_sub_tendsto_zero]
    have h0 : Tendsto (fun t => ∑ i, |x t i - x t₀ i|) (𝓝 t₀) (𝓝 0) := by
      have : Tendsto (fun t => ∑ i, |x t i - x t₀ i|) (𝓝 t₀) (𝓝 (∑ i : Fin n, |x t₀ i - x t₀ i|)) :=
        tendsto_finsetSum _ fun i _ =>
          (((hx i).continuousAt.tendsto).sub tendsto_const_nhds).abs
      simpa using this
    exact squeeze_zero (fun _ => norm_nonneg _) (fun t => hbound t) h0
  have hac : ∀ i, Tendsto (fun t => x t i + nu t) (𝓝 t₀) (𝓝 (x t₀ i + nu t₀)) :=
    fun i => (hx i).continuousAt.tendsto.add hnuc
  -- slopes of the sigmoid
  set c : ℝ → Fin n → ℝ := fun t i => dslope sigmoid (x t₀ i + nu t₀) (x t i + nu t) with hc
  set y : Fin n → ℝ := fun i => sigmoid (x t₀ i + nu t₀) with hy
  have y0 : ∀ i, 0 < y i := fun i => sigmoid_pos _
  have y1 : ∀ i, 0 < 1 - y i := fun i => by have := sigmoid_lt_one (x t₀ i + nu t₀); simp only [hy]; linarith
  have hclim : ∀ i, Tendsto (fun t => c t i) (𝓝 t₀) (𝓝 (y i * (1 - y i))) := by
    intro i
    have h1 : ContinuousAt (dslope sigmoid (x t₀ i + nu t₀)) (x t₀ i + nu t₀) :=
      continuousAt_dslope_same.mpr (hasDerivAt_sigmoid _).differentiableAt
    have h2 := h1.tendsto.comp (hac i)
    rw [dslope_same, (hasDerivAt_sigmoid _).deriv] at h2
    exact h2
  have hcs : ∀ t i, sigmoid (x t i + nu t) - y i
      = c t i * ((x t i - x t₀ i) + (nu t - nu t₀)) := by
    intro t i
    have := sub_smul_dslope sigmoid (x t₀ i + nu t₀) (x t i + nu t)
    rw [smul_eq_mul] at this
    rw [hc, ← this]
    ring
  have hcpos : ∀ t i, 0 < c t i := by
    intro t i
    simp only [hc]
    rcases eq_or_ne (x t i + nu t) (x t₀ i + nu t₀) with h | h
    · rw [h, dslope_same, (hasDerivAt_sigmoid _).deriv]
      exact mul_pos (y0 i) (y1 i)
    · rw [dslope_of_ne _ h, slope_def_field]
      rcases lt_or_gt_of_ne h with h | h
      · exact div_pos_of_neg_of_neg (by linarith [sigmoid_lt h]) (by linarith)
      · exact div_pos (by linarith [sigmoid_lt h]) (by linarith)
  have hCpos : ∀ t, 0 < ∑ i, c t i := fun t =>
    Finset.sum_pos (fun i _ => hcpos t i) Finset.univ_nonempty
  have hdelta : ∀ t, nu t - nu t₀ = -(∑ i, c t i * (x t i - x t₀ i)) / ∑ i, c t i := by
    intro t
    have h0 : ∑ i, (sigmoid (x t i + nu t) - y i) = 0 := by
      rw [Finset.sum_sub_distrib, hnu t, hy, hnu t₀, sub_self]
    simp only [hcs, mul_add, Finset.sum_add_distrib, ← Finset.sum_mul] at h0
    rw [eq_div_iff (hCpos t).ne']
    linarith
  have hH : ∀ i, (1 : ℝ) / (1 / y i + 1 / (1 - y i)) = y i * (1 - y i) := by
    intro i
    have := y0 i; have := y1 i
    field_simp
    ring
  have hnud : HasDerivAt nu (-(∑ i, y i * (1 - y i) * x' i) / ∑ i, y i * (1 - y i)) t₀ := by
    rw [hasDerivAt_iff_tendsto_slope]
    have hW : (∑ i, y i * (1 - y i)) ≠ 0 :=
      (Finset.sum_pos (fun i _ => mul_pos (y0 i) (y1 i)) Finset.univ_nonempty).ne'
    have hl : Tendsto (fun t => -(∑ i, c t i * slope (fun t => x t i) t₀ t) / ∑ i, c t i)
        (𝓝[≠] t₀) (𝓝 (-(∑ i, y i * (1 - y i) * x' i) / ∑ i, y i * (1 - y i))) := by
      refine Tendsto.div (Tendsto.neg (tendsto_finsetSum _ fun i _ => ?_))
        (tendsto_finsetSum _ fun i _ => (hclim i).mono_left nhdsWithin_le_nhds) hW
      exact ((hclim i).mono_left nhdsWithin_le_nhds).mul (hasDerivAt_iff_tendsto_slope.mp (hx i))
    refine hl.congr fun t => ?_
    simp only [slope_def_field]
    have e : (∑ i, c t i * (x t i - x t₀ i)) / (t - t₀)
        = ∑ i, c t i * ((x t i - x t₀ i) / (t - t₀)) := by
      rw [Finset.sum_div]
      exact Finset.sum_congr rfl fun i _ => by rw [mul_div_assoc]
    rw [hdelta t, div_right_comm, ← e]
    ring
  have hd : HasDerivAt (fun t => ∑ i, g i * sigmoid (x t i + nu t))
      (∑ i, g i * (y i * (1 - y i) * (x' i
        + -(∑ i, y i * (1 - y i) * x' i) / ∑ i, y i * (1 - y i)))) t₀ := by
    refine HasDerivAt.fun_sum fun i _ => ?_
    refine HasDerivAt.const_mul _ ?_
    have hin : HasDerivAt (fun t => x t i + nu t) _ t₀ := (hx i).fun_add hnud
    exact HasDerivAt.comp (h₂ := sigmoid) t₀ (hasDerivAt_sigmoid (x t₀ i + nu t₀)) hin
  refine hd.congr_deriv ?_
  simp only [lmlBackward, hH]
  set W := ∑ i, y i * (1 - y i)
  set A := ∑ i, y i * (1 - y i) * x' i with hA
  set B := ∑ i, y i * (1 - y i) * g i with hB
  have l : ∑ i, g i * (y i * (1 - y i) * (x' i + -A / W))
      = ∑ i, y i * (1 - y i) * g i * x' i + B * (-A / W) := by
    rw [hB, Finset.sum_mul, ← Finset.sum_add_distrib]
    exact Finset.sum_congr rfl fun i _ => by ring
  have r : ∑ i, -(y i * (1 - y i)) * (-g i + B / W) * x' i
      = ∑ i, y i * (1 - y i) * g i * x' i - A * (B / W) := by
    rw [hA, Finset.sum_mul, ← Finset.sum_sub_distrib]
    exact Finset.sum_congr rfl fun i _ => by ring
  rw [l, r]
  ring

/-- Non-vacuity: a curve of two entries with weights summing to one. -/
example : ∃ nu : ℝ → ℝ, ∀ t : ℝ, ∑ i, sigmoid ((![t, 0] : Fin 2 → ℝ) i + nu t) = ((1 : ℕ) : ℝ) := by
  refine ⟨fun t => -t / 2, fun t => ?_⟩
  rw [Fin.sum_univ_two]
  simp only [Matrix.cons_val_zero, Matrix.cons_val_one, Nat.cast_one]
  rw [show (t + -t / 2 : ℝ) = t / 2 by ring, show (0 + -t / 2 : ℝ) = -(t / 2) by ring, sigmoid_neg]
  ring

/-- The gradient of a loss that is the same for every weight is zero: the sum of the weights is
fixed. -/
theorem lml_backward_const {n : ℕ} (y : Fin n → ℝ) (k : ℝ) (hH : ∑ i, 1 / (1 / y i + 1 / (1 - y i)) ≠ 0) :
    lmlBackward y (fun _ => k) = 0 := by
  funext i
  simp only [lmlBackward, ← Finset.sum_mul]
  rw [mul_div_assoc, mul_div_cancel₀ _ hH]
  simp

end Verif.Dcem
