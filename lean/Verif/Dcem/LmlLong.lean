import Verif.Dcem.LmlProps

/-!
# The limited multi-label projection: rows of any length (C67)

`initial_bracket` needs fewer than `e ^ 7` entries beyond `N`.  With more, the lower end of the initial
interval may be too large; the branch that prints "all positive iterates" then moves it down by 7 in every
iteration until it is low enough.  Only `N` has to be below `e ^ 7` (`lml_fails_large`).
-/

namespace Verif.Dcem
open Real

/-- The lower end is low enough, if the margin is. -/
theorem lower_margin {x : List ℝ} {N : ℕ} {c : ℝ} (hN : 1 ≤ N) (hlen : N < x.length)
    (h2 : (x.length : ℝ) - N < exp c) : lmlF x N (-(sortDesc x).getD (N - 1) 0 - c) < 0 := by
  have hlen' : (sortDesc x).length = x.length := (sortDesc_perm x).length_eq
  have hs := sortDesc_sorted x
  have h7 : sigmoid (-c) * (1 + exp c) = 1 := by
    rw [sigmoid_def, neg_neg]
    exact inv_mul_cancel₀ (by positivity)
  have h7p := sigmoid_pos (-c)
  rw [← lmlF_perm (sortDesc_perm x)]
  obtain ⟨s, hs'⟩ : ∃ s, sortDesc x = s := ⟨_, rfl⟩
  rw [hs'] at hlen' hs ⊢
  set a := s.getD (N - 1) 0 with ha
  have hsp := split_at (l := s) (k := N - 1) (by omega)
  rw [← ha] at hsp
  have hl1 : (s.take (N - 1)).length = N - 1 := by rw [List.length_take]; omega
  have hl2 : (s.drop (N - 1 + 1)).length = x.length - N := by rw [List.length_drop]; omega
  have hle : ∀ u ∈ s.drop (N - 1 + 1), u ≤ a := by
    rw [hsp, List.pairwise_append] at hs
    have := hs.2.1
    rw [List.pairwise_cons] at this
    exact this.1
  have e : lmlF s N (-a - c) = ((s.take (N - 1)).map fun u => sigmoid (u + (-a - c))).sum
      + (sigmoid (-c) + ((s.drop (N - 1 + 1)).map fun u => sigmoid (u + (-a - c))).sum) - N := by
    unfold lmlF
    conv_lhs => rw [hsp]
    rw [List.map_append, List.sum_append, List.map_cons, List.sum_cons]
    congr 4
    ring
  have b1 : ((s.take (N - 1)).map fun u => sigmoid (u + (-a - c))).sum ≤ (N - 1 : ℕ) * 1 := by
    have := sum_le_card (l := (s.take (N - 1)).map fun u => sigmoid (u + (-a - c))) (c := 1)
      (by
        intro v hv
        obtain ⟨u, _, rfl⟩ := List.mem_map.mp hv
        exact sigmoid_le_one _)
    rwa [List.length_map, hl1] at this
  have b2 : ((s.drop (N - 1 + 1)).map fun u => sigmoid (u + (-a - c))).sum
      ≤ (x.length - N : ℕ) * sigmoid (-c) := by
    have := sum_le_card (l := (s.drop (N - 1 + 1)).map fun u => sigmoid (u + (-a - c)))
      (c := sigmoid (-c))
      (by
        intro v hv
        obtain ⟨u, hu, rfl⟩ := List.mem_map.mp hv
        exact sigmoid_le (by linarith [hle u hu]))
    rwa [List.length_map, hl2] at this
  have c1 : ((N - 1 : ℕ) : ℝ) = N - 1 := by rw [Nat.cast_sub hN]; simp
  have c2 : ((x.length - N : ℕ) : ℝ) = x.length - N := by rw [Nat.cast_sub hlen.le]
  rw [c1] at b1
  rw [c2] at b2
  rw [e]
  have : (1 + ((x.length : ℝ) - N)) * sigmoid (-c) < 1 := by
    calc (1 + ((x.length : ℝ) - N)) * sigmoid (-c) < (1 + exp c) * sigmoid (-c) := by
          exact mul_lt_mul_of_pos_right (by linarith) h7p
      _ = 1 := by rw [mul_comm]; exact h7
  linarith

/-- The upper end of the initial interval is high enough, whatever the number of entries. -/
theorem initial_upper {x : List ℝ} {N : ℕ} (hlen : N < x.length) (h1 : (N : ℝ) < exp 7) :
    0 ≤ lmlF x N (-(sortDesc x).getD N 0 + 7) := by
  have hlen' : (sortDesc x).length = x.length := (sortDesc_perm x).length_eq
  have hs := sortDesc_sorted x
  have h7 := sigmoid_seven
  have h7p := sigmoid_pos (-7)
  rw [← lmlF_perm (sortDesc_perm x)]
  obtain ⟨s, hs'⟩ : ∃ s, sortDesc x = s := ⟨_, rfl⟩
  rw [hs'] at hlen' hs ⊢
  set a := s.getD N 0 with ha
  have hsp := split_at (l := s) (k := N) (by omega)
  rw [← ha] at hsp
  have hl1 : (s.take N).length = N := by rw [List.length_take]; omega
  have hge : ∀ u ∈ s.take N, a ≤ u := by
    rw [hsp, List.pairwise_append] at hs
    intro u hu
    exact hs.2.2 u hu a (by simp)
  have e : lmlF s N (-a + 7) = ((s.take N).map fun u => sigmoid (u + (-a + 7))).sum
      + (sigmoid 7 + ((s.drop (N + 1)).map fun u => sigmoid (u + (-a + 7))).sum) - N := by
    unfold lmlF
    conv_lhs => rw [hsp]
    rw [List.map_append, List.sum_append, List.map_cons, List.sum_cons]
    congr 4
    ring
  have b1 : (N : ℝ) * sigmoid 7 ≤ ((s.take N).map fun u => sigmoid (u + (-a + 7))).sum := by
    have := card_le_sum (l := (s.take N).map fun u => sigmoid (u + (-a + 7))) (c := sigmoid 7)
      (by
        intro v hv
        obtain ⟨u, hu, rfl⟩ := List.mem_map.mp hv
        exact sigmoid_le (by linarith [hge u hu]))
    rwa [List.length_map, hl1] at this
  have b2 : 0 ≤ ((s.drop (N + 1)).map fun u => sigmoid (u + (-a + 7))).sum := by
    refine List.sum_nonneg fun v hv => ?_
    obtain ⟨u, _, rfl⟩ := List.mem_map.mp hv
    exact sigmoid_nonneg _
  have h7' : sigmoid 7 = 1 - sigmoid (-7) := by rw [sigmoid_neg]; ring
  rw [e]
  have : ((N : ℝ) + 1) * sigmoid (-7) < 1 := by
    calc ((N : ℝ) + 1) * sigmoid (-7) < (1 + exp 7) * sigmoid (-7) := by
          exact mul_lt_mul_of_pos_right (by linarith) h7p
      _ = 1 := by rw [mul_comm]; exact h7
  rw [h7'] at b1 ⊢
  nlinarith

/-- The sorted entries are ordered, so the initial interval is not empty. -/
theorem initial_lt {x : List ℝ} {N : ℕ} (hlen : N < x.length) :
    -(sortDesc x).getD (N - 1) 0 - 7 < -(sortDesc x).getD N 0 + 7 := by
  have hlen' : (sortDesc x).length = x.length := (sortDesc_perm x).length_eq
  have hs := sortDesc_sorted x
  have : (sortDesc x).getD N 0 ≤ (sortDesc x).getD (N - 1) 0 := by
    rcases Nat.eq_zero_or_pos N with rfl | hN
    · exact le_refl _
    · rw [List.pairwise_iff_getElem] at hs
      have := hs (N - 1) N (by omega) (by omega) (by omega)
      simpa [List.getD, show N - 1 < (sortDesc x).length by omega, show N < (sortDesc x).length by omega] using this
  linarith

/-- An iteration that starts too high moves the lower end down. -/
theorem lmlStep_high {x : List ℝ} {N branch : ℕ} {lo hi : ℝ} (hx : x ≠ []) (hlt : lo < hi)
    (hb : 2 ≤ branch) (h : 0 ≤ lmlF x N lo) :
    lmlStep x N branch lo hi = some (lo - 7, lo + (hi - lo) / (branch - 1)) := by
  classical
  have hbr : (0 : ℝ) < branch - 1 := by
    have : (2 : ℝ) ≤ branch := by exact_mod_cast hb
    linarith
  have hf : (List.range branch).filter (fun j => decide (lmlF x N (lmlGrid branch lo (hi - lo) j) < 0)) = [] := by
    rw [List.filter_eq_nil_iff]
    intro j _
    rw [decide_eq_true_eq, not_lt]
    refine h.trans ((lmlF_strictMono hx N).monotone ?_)
    unfold lmlGrid
    have : 0 ≤ (hi - lo) * ((j : ℝ) / (branch - 1)) := by
      have : 0 < hi - lo := by linarith
      positivity
    linarith
  simp only [lmlStep]
  rw [hf, List.length_nil, if_pos rfl]
  simp [lmlGrid]
  ring

/-- The loop with an interval that starts too high. -/
theorem lmlLoop_long {x : List ℝ} {N branch : ℕ} {eps : ℝ} (hx : x ≠ []) (hb : 2 ≤ branch) (he0 : 0 < eps)
    (he : eps < 7) (n : ℕ) (k : ℕ) : ∀ {lo hi r : ℝ}, lo < hi → 0 ≤ lmlF x N hi → lmlF x N (lo - 7 * k) < 0 →
    (0 ≤ lmlF x N lo → eps < hi - lo) → hi - lo + 7 * k ≤ eps * (branch - 1 : ℝ) ^ n →
    ∃ lo' hi', lmlLoop x N branch eps (n + k + 1) lo hi r = some ((lo' + hi') / 2) ∧
      Bracket x N lo' hi' ∧ hi' - lo' ≤ eps := by
  have hbr : (1 : ℝ) ≤ branch - 1 := by
    have : (2 : ℝ) ≤ branch := by exact_mod_cast hb
    linarith
  induction k with
  | zero =>
    intro lo hi r _ h1 h2 _ h4
    refine lmlLoop_bracket hx hb n ⟨by simpa using h2, h1⟩ (by simpa using h4)
  | succ k ih =>
    intro lo hi r hlt h1 h2 h3 h4
    push_cast at h2 h4
    by_cases hlo : lmlF x N lo < 0
    · refine lmlLoop_bracket hx hb (n + (k + 1)) ⟨hlo, h1⟩ ?_
      have : (branch - 1 : ℝ) ^ n ≤ (branch - 1 : ℝ) ^ (n + (k + 1)) := pow_le_pow_right₀ hbr (by omega)
      have hk : (0 : ℝ) ≤ k := Nat.cast_nonneg k
      nlinarith
    · rw [not_lt] at hlo
      have hdiv : (hi - lo) / (branch - 1 : ℝ) ≤ hi - lo := div_le_self (by linarith) hbr
      have hdiv0 : 0 < (hi - lo) / (branch - 1 : ℝ) := by
        have : 0 < hi - lo := by linarith
        positivity
      obtain ⟨lo', hi', e1, e2, e3⟩ := ih (lo := lo - 7) (hi := lo + (hi - lo) / (branch - 1)) (r := hi - lo)
        (by linarith) (hlo.trans ((lmlF_strictMono hx N).monotone (by linarith)))
        (by rw [show lo - 7 - 7 * (k : ℝ) = lo - 7 * (k + 1) by ring]; exact h2) (fun _ => by linarith)
        (by linarith)
      refine ⟨lo', hi', ?_, e2, e3⟩
      rw [show n + (k + 1) + 1 = (n + k + 1) + 1 by omega, lmlLoop, if_pos (h3 hlo), lmlStep_high hx hlt hb hlo]
      exact e1

/-- The middle of a bracket is close to the exact shift, which is unique. -/
theorem shift_of_bracket {x : List ℝ} {N : ℕ} {lo hi eps : ℝ} (hx : x ≠ []) (hB : Bracket x N lo hi)
    (hwd : hi - lo ≤ eps) : ∃ nuStar, IsShift x N nuStar ∧ (∀ nu', IsShift x N nu' → nu' = nuStar) ∧
      |(lo + hi) / 2 - nuStar| ≤ eps / 2 := by
  have hlt := hB.lt hx
  obtain ⟨nuS, hS, hS0⟩ := intermediate_value_Icc hlt.le (lmlF_continuous x N).continuousOn
    (show (0 : ℝ) ∈ Set.Icc (lmlF x N lo) (lmlF x N hi) from ⟨hB.lo.le, hB.hi⟩)
  refine ⟨nuS, ?_, ?_, ?_⟩
  · unfold IsShift; unfold lmlF at hS0; linarith
  · intro nu' h'
    apply (lmlF_strictMono hx N).injective
    rw [hS0]
    unfold lmlF
    unfold IsShift at h'
    linarith
  · rw [abs_le]
    constructor <;> linarith [hS.1, hS.2]

/-- What the weights are worth: one per entry, strictly between 0 and 1, larger for larger entries, with sum
`N` up to `length * eps / 8`, each within `eps / 8` of the exact weight. -/
def GoodWeights (x : List ℝ) (N : ℕ) (eps : ℝ) (y : List ℝ) : Prop :=
  y.length = x.length ∧ (∀ v ∈ y, 0 < v ∧ v < 1) ∧
    (∀ i j, i < x.length → j < x.length → (y.getD i 0 < y.getD j 0 ↔ x.getD i 0 < x.getD j 0)) ∧
    |y.sum - N| ≤ x.length * eps / 8 ∧ ∃ nuStar, IsShift x N nuStar ∧
      ∀ i, i < x.length → |y.getD i 0 - sigmoid (x.getD i 0 + nuStar)| ≤ eps / 8

theorem weights_of_shift {x : List ℝ} {N : ℕ} {eps nu nuS : ℝ} (hS : IsShift x N nuS) (hd : |nu - nuS| ≤ eps / 2) :
    GoodWeights x N eps (x.map fun u => sigmoid (u + nu)) := by
  have get : ∀ i, i < x.length →
      (x.map fun u => sigmoid (u + nu)).getD i 0 = sigmoid (x.getD i 0 + nu) := by
    intro i hi
    simp [List.getD, hi]
  refine ⟨by simp, ?_, ?_, ?_, nuS, hS, ?_⟩
  · intro v hv
    obtain ⟨u, _, rfl⟩ := List.mem_map.mp hv
    exact ⟨sigmoid_pos _, sigmoid_lt_one _⟩
  · intro i j hi hj
    rw [get i hi, get j hj, sigmoid_strictMono.lt_iff_lt]
    constructor <;> intro h <;> linarith
  · have := lmlF_lipschitz x N nu nuS
    have z : lmlF x N nuS = 0 := by unfold lmlF; unfold IsShift at hS; linarith
    rw [z, sub_zero] at this
    calc _ = |lmlF x N nu| := rfl
      _ ≤ _ := this
      _ ≤ x.length / 4 * (eps / 2) := by gcongr
      _ = _ := by ring
  · intro i hi
    rw [get i hi]
    have := sigmoid_lipschitz (x.getD i 0 + nu) (x.getD i 0 + nuS)
    rw [show x.getD i 0 + nu - (x.getD i 0 + nuS) = nu - nuS by ring] at this
    linarith

/-- **C67 for rows of any length**: only `N` has to be below `e ^ 7`.  With fewer than `e ^ (7 * (k + 1))`
entries beyond `N`, `k` of the iterations may be spent on moving the lower end. -/
theorem lml_weights_long {N branch n k : ℕ} {eps : ℝ} {x : List ℝ} (hN : 1 ≤ N) (hlen : N < x.length)
    (h1 : (N : ℝ) < exp 7) (h2 : (x.length : ℝ) - N < exp (7 * (k + 1))) (hb : 2 ≤ branch) (he0 : 0 < eps)
    (he : eps < 7)
    (hw : (sortDesc x).getD (N - 1) 0 - (sortDesc x).getD N 0 + 14 + 7 * k ≤ eps * (branch - 1 : ℝ) ^ n) :
    ∃ y, lml N branch (n + k + 1) eps x = some y ∧ GoodWeights x N eps y := by
  have hx : x ≠ [] := by rintro rfl; simp at hlen
  have hlt := initial_lt hlen
  obtain ⟨lo, hi, e1, hB, hwd⟩ := lmlLoop_long (eps := eps) (N := N)
    (r := -(sortDesc x).getD N 0 + 7 - (-(sortDesc x).getD (N - 1) 0 - 7)) hx hb he0 he n k hlt
    (initial_upper hlen h1)
    (by
      have := lower_margin hN hlen h2
      rwa [show -(sortDesc x).getD (N - 1) 0 - 7 - 7 * (k : ℝ) = -(sortDesc x).getD (N - 1) 0 - 7 * (k + 1) by ring])
    (fun _ => by
      have hlen' : (sortDesc x).length = x.length := (sortDesc_perm x).length_eq
      have hs := sortDesc_sorted x
      rw [List.pairwise_iff_getElem] at hs
      have := hs (N - 1) N (by omega) (by omega) (by omega)
      have : (sortDesc x).getD N 0 ≤ (sortDesc x).getD (N - 1) 0 := by
        simpa [List.getD, show N - 1 < (sortDesc x).length by omega, show N < (sortDesc x).length by omega] using this
      linarith)
    (by linarith)
  obtain ⟨nuS, hS, -, hd⟩ := shift_of_bracket hx hB hwd
  refine ⟨_, ?_, weights_of_shift hS hd⟩
  rw [lml, if_neg (by omega)]
  simp only
  rw [e1]

/-- Non-vacuity: the default settings of the optimizer cover a million equal entries. -/
example : ∃ y, lml 5 10 100 1e-3 (List.replicate 1000000 (0 : ℝ)) = some y ∧
    GoodWeights (List.replicate 1000000 (0 : ℝ)) 5 1e-3 y := by
  have h7 := exp_seven_gt
  have hs : sortDesc (List.replicate 1000000 (0 : ℝ)) = List.replicate 1000000 0 :=
    List.perm_replicate.mp (sortDesc_perm _)
  have g : ∀ i, (List.replicate 1000000 (0 : ℝ)).getD i 0 = 0 := by
    intro i
    rw [List.getD_eq_getElem?_getD, List.getElem?_replicate]
    split <;> rfl
  refine lml_weights_long (n := 98) (k := 1) (by norm_num) (by rw [List.length_replicate]; norm_num)
    (by linarith [(by norm_num : ((5 : ℕ) : ℝ) = 5)]) ?_ (by norm_num) (by norm_num) (by norm_num) ?_
  · rw [List.length_replicate]
    have : exp (7 * (((1 : ℕ) : ℝ) + 1)) = exp 7 * exp 7 := by rw [← exp_add]; norm_num
    rw [this]
    push_cast
    nlinarith
  · rw [hs, g, g]
    norm_num

end Verif.Dcem
