import Verif.Dcem.Lml
import Mathlib.Analysis.Calculus.DSlope
import Mathlib.Analysis.Calculus.MeanValue
import Mathlib.Analysis.SpecialFunctions.Log.Basic
import Mathlib.Analysis.Complex.ExponentialBounds

/-!
# The limited multi-label projection: lemmas
-/

namespace Verif.Dcem
open Real

/-! ## Lemmas: the search -/

theorem lmlF_strictMono {x : List ℝ} (hx : x ≠ []) (N : ℕ) : StrictMono (lmlF x N) := by
  intro a b hab
  refine sub_lt_sub_right ?_ _
  refine List.sum_lt_sum_of_ne_nil hx _ _ fun u _ => ?_
  exact sigmoid_lt (by linarith)

theorem lmlF_continuous (x : List ℝ) (N : ℕ) : Continuous (lmlF x N) := by
  unfold lmlF
  refine Continuous.sub ?_ continuous_const
  induction x with
  | nil => simpa using continuous_const
  | cons a l ih =>
    simp only [List.map_cons, List.sum_cons]
    exact (continuous_sigmoid.comp (continuous_const.add continuous_id)).add ih

theorem lmlF_perm {x y : List ℝ} (h : x.Perm y) (N : ℕ) (nu : ℝ) : lmlF x N nu = lmlF y N nu := by
  unfold lmlF
  rw [(h.map _).sum_eq]

/-- A filter of a range by a downward closed predicate is an initial segment. -/
theorem filter_initial (p : ℕ → Bool) (b : ℕ) (hp : ∀ i j, i ≤ j → p j = true → p i = true) :
    ∀ j < b, p j = true ↔ j < ((List.range b).filter p).length := by
  induction b with
  | zero => intro j hj; omega
  | succ b ih =>
    intro j hj
    rw [List.range_succ, List.filter_append, List.length_append]
    have hle : ((List.range b).filter p).length ≤ b := by
      simpa using List.length_filter_le p (List.range b)
    by_cases hb : p b = true
    · have hall : ((List.range b).filter p).length = b := by
        by_contra hne
        have hlt : ((List.range b).filter p).length < b := lt_of_le_of_ne hle hne
        have := (ih _ hlt).mp (hp _ b hlt.le hb)
        omega
      simp only [List.filter_cons, hb, if_true, List.filter_nil, List.length_singleton, hall]
      exact ⟨fun _ => hj, fun _ => hp j b (by omega) hb⟩
    · simp only [List.filter_cons, hb, List.filter_nil]
      rcases Nat.lt_succ_iff_lt_or_eq.mp hj with h | h
      · simpa using ih j h
      · subst h
        simp only [hb]
        simp
        exact hle

/-- The bracket: the function is negative on the left and not negative on the right. -/
structure Bracket (x : List ℝ) (N : ℕ) (lo hi : ℝ) : Prop where
  lo : lmlF x N lo < 0
  hi : 0 ≤ lmlF x N hi

theorem Bracket.lt {x : List ℝ} {N : ℕ} {lo hi : ℝ} (h : Bracket x N lo hi) (hx : x ≠ []) :
    lo < hi := (lmlF_strictMono hx N).lt_iff_lt.mp (lt_of_lt_of_le h.lo h.hi)

/-- One iteration keeps the bracket and divides its width by `branch - 1`. -/
theorem lmlStep_bracket {x : List ℝ} {N branch : ℕ} {lo hi : ℝ} (hx : x ≠ []) (hb : 2 ≤ branch)
    (h : Bracket x N lo hi) :
    ∃ lo' hi', lmlStep x N branch lo hi = some (lo', hi') ∧ Bracket x N lo' hi' ∧
      hi' - lo' = (hi - lo) / (branch - 1) := by
  classical
  have hlt := h.lt hx
  have hbr : (0 : ℝ) < branch - 1 := by
    have : (2 : ℝ) ≤ branch := by exact_mod_cast hb
    linarith
  have hgrid : ∀ i j : ℕ, i ≤ j → lmlGrid branch lo (hi - lo) i ≤ lmlGrid branch lo (hi - lo) j := by
    intro i j hij
    have : (i : ℝ) ≤ j := by exact_mod_cast hij
    unfold lmlGrid
    have : (i : ℝ) / (branch - 1 : ℝ) ≤ j / (branch - 1 : ℝ) := by gcongr
    nlinarith
  have h0 : lmlGrid branch lo (hi - lo) 0 = lo := by simp [lmlGrid]
  have h1 : lmlGrid branch lo (hi - lo) (branch - 1) = hi := by
    have : ((branch - 1 : ℕ) : ℝ) = branch - 1 := by
      rw [Nat.cast_sub (by omega)]; simp
    rw [lmlGrid, this, div_self hbr.ne']; ring
  have key := filter_initial (fun j => decide (lmlF x N (lmlGrid branch lo (hi - lo) j) < 0)) branch
    (by
      intro i j hij hj
      simp only [decide_eq_true_eq] at hj ⊢
      exact lt_of_le_of_lt ((lmlF_strictMono hx N).monotone (hgrid i j hij)) hj)
  set c := ((List.range branch).filter
    (fun j => decide (lmlF x N (lmlGrid branch lo (hi - lo) j) < 0))).length with hc
  have hcpos : 0 < c := (key 0 (by omega)).mp (by simpa [h0] using h.lo)
  have hcb : c < branch := by
    by_contra hge
    have := (key (branch - 1) (by omega)).mpr (by omega)
    simp only [h1, decide_eq_true_eq] at this
    linarith [h.hi]
  refine ⟨lmlGrid branch lo (hi - lo) (c - 1), lmlGrid branch lo (hi - lo) c, ?_, ⟨?_, ?_⟩, ?_⟩
  · simp only [lmlStep]
    rw [if_neg (by rw [← hc]; omega), if_pos (by rw [← hc]; exact hcb)]
  · simpa using (key (c - 1) (by omega)).mpr (by omega)
  · by_contra hneg
    have := (key c hcb).mp (by simpa using hneg)
    omega
  · have : ((c - 1 : ℕ) : ℝ) = c - 1 := by rw [Nat.cast_sub (by omega)]; simp
    rw [lmlGrid, lmlGrid, this]
    field_simp
    ring

/-- The loop ends with a bracket no wider than `eps` and returns its middle. -/
theorem lmlLoop_bracket {x : List ℝ} {N branch : ℕ} {eps : ℝ} (hx : x ≠ []) (hb : 2 ≤ branch)
    (n : ℕ) : ∀ {lo hi r : ℝ}, Bracket x N lo hi → hi - lo ≤ eps * (branch - 1 : ℝ) ^ n →
    ∃ lo' hi', lmlLoop x N branch eps (n + 1) lo hi r = some ((lo' + hi') / 2) ∧
      Bracket x N lo' hi' ∧ hi' - lo' ≤ eps := by
  have hbr : (0 : ℝ) < branch - 1 := by
    have : (2 : ℝ) ≤ branch := by exact_mod_cast hb
    linarith
  induction n with
  | zero =>
    intro lo hi r hB hw
    rw [pow_zero, mul_one] at hw
    refine ⟨lo, hi, ?_, hB, hw⟩
    rw [lmlLoop, if_neg (not_lt.mpr hw)]
    congr 1; ring
  | succ n ih =>
    intro lo hi r hB hw
    by_cases he : hi - lo > eps
    · obtain ⟨lo', hi', h1, h2, h3⟩ := lmlStep_bracket hx hb hB
      have hw' : hi' - lo' ≤ eps * (branch - 1 : ℝ) ^ n := by
        rw [h3, div_le_iff₀ hbr]
        calc hi - lo ≤ eps * (branch - 1 : ℝ) ^ (n + 1) := hw
          _ = _ := by ring
      obtain ⟨lo2, hi2, h4, h5, h6⟩ := ih (r := hi - lo) h2 hw'
      refine ⟨lo2, hi2, ?_, h5, h6⟩
      rw [lmlLoop, if_pos he, h1]
      exact h4
    · refine ⟨lo, hi, ?_, hB, not_lt.mp he⟩
      rw [lmlLoop, if_neg he]
      congr 1; ring

theorem sigmoid_lipschitz (a b : ℝ) : |sigmoid a - sigmoid b| ≤ 1 / 4 * |a - b| := by
  have := Convex.norm_image_sub_le_of_norm_hasDerivWithin_le (f := sigmoid)
    (f' := fun x => sigmoid x * (1 - sigmoid x)) (s := Set.univ) (C := 1 / 4) (x := b) (y := a)
    (fun x _ => (hasDerivAt_sigmoid x).hasDerivWithinAt)
    (fun x _ => by
      rw [Real.norm_eq_abs, abs_of_nonneg (mul_nonneg (sigmoid_nonneg x)
        (by linarith [sigmoid_le_one x]))]
      nlinarith [sq_nonneg (sigmoid x - 1 / 2)])
    convex_univ (Set.mem_univ _) (Set.mem_univ _)
  simpa [Real.norm_eq_abs] using this

theorem lmlF_lipschitz (x : List ℝ) (N : ℕ) (a b : ℝ) :
    |lmlF x N a - lmlF x N b| ≤ x.length / 4 * |a - b| := by
  have : lmlF x N a - lmlF x N b
      = (x.map fun u => sigmoid (u + a)).sum - (x.map fun u => sigmoid (u + b)).sum := by
    simp [lmlF]
  rw [this]
  clear this
  induction x with
  | nil => simp
  | cons u l ih =>
    simp only [List.map_cons, List.sum_cons, List.length_cons, Nat.cast_add, Nat.cast_one]
    have h1 := sigmoid_lipschitz (u + a) (u + b)
    have h2 : u + a - (u + b) = a - b := by ring
    rw [h2] at h1
    calc _ = |(sigmoid (u + a) - sigmoid (u + b)) + ((l.map fun u => sigmoid (u + a)).sum
            - (l.map fun u => sigmoid (u + b)).sum)| := by congr 1; ring
      _ ≤ _ := abs_add_le _ _
      _ ≤ 1 / 4 * |a - b| + l.length / 4 * |a - b| := add_le_add h1 ih
      _ = _ := by ring

/-! ## Lemmas: the initial bracket -/

theorem sortDesc_perm (x : List ℝ) : (sortDesc x).Perm x := List.mergeSort_perm _ _

theorem sortDesc_sorted (x : List ℝ) : (sortDesc x).Pairwise (fun a b => b ≤ a) := by
  classical
  have := List.pairwise_mergeSort (le := fun a b : ℝ => decide (b ≤ a))
    (by intro a b c h1 h2; simp only [decide_eq_true_eq] at *; linarith)
    (by intro a b; simp only [Bool.or_eq_true, decide_eq_true_eq]; exact le_total b a) x
  simpa [sortDesc] using this

theorem sum_le_card {l : List ℝ} {c : ℝ} (h : ∀ u ∈ l, u ≤ c) : l.sum ≤ l.length * c := by
  have := List.sum_le_card_nsmul l c h
  simpa using this

theorem card_le_sum {l : List ℝ} {c : ℝ} (h : ∀ u ∈ l, c ≤ u) : l.length * c ≤ l.sum := by
  have := List.card_nsmul_le_sum l c h
  simpa using this

theorem sigmoid_seven : sigmoid (-7) * (1 + exp 7) = 1 := by
  rw [sigmoid_def, neg_neg]
  exact inv_mul_cancel₀ (by positivity)

theorem split_at {l : List ℝ} {k : ℕ} (hk : k < l.length) :
    l = l.take k ++ l.getD k 0 :: l.drop (k + 1) := by
  have : l.getD k 0 = l[k] := by simp [List.getD, hk]
  rw [this, List.cons_getElem_drop_succ, List.take_append_drop]

theorem initial_bracket {x : List ℝ} {N : ℕ} (hN : 1 ≤ N) (hlen : N < x.length)
    (h1 : (N : ℝ) < exp 7) (h2 : (x.length : ℝ) - N < exp 7) :
    Bracket x N (-(sortDesc x).getD (N - 1) 0 - 7) (-(sortDesc x).getD N 0 + 7) := by
  have hlen' : (sortDesc x).length = x.length := (sortDesc_perm x).length_eq
  have hs := sortDesc_sorted x
  have h7 := sigmoid_seven
  have h7p := sigmoid_pos (-7)
  constructor
  · rw [← lmlF_perm (sortDesc_perm x)]
    obtain ⟨s, hs'⟩ : ∃ s, sortDesc x = s := ⟨_, rfl⟩
    rw [hs'] at hlen' hs ⊢
    set a := s.getD (N - 1) 0 with ha
    have hsp := split_at (l := s) (k := N - 1) (by omega)
    rw [← ha] at hsp
    have hl1 : (s.take (N - 1)).length = N - 1 := by rw [List.length_take]; omega
    have hl2 : (s.drop (N - 1 + 1)).length = x.length - N := by rw [List.length_drop]; omega
    have hle : ∀ u ∈ s.drop (N - 1 + 1), u ≤ a := by
      rw [hsp, List.pairwise_append] at hs
      have := hs.2.1
      rw [List.pairwise_cons] at this
      exact this.1
    have e : lmlF s N (-a - 7) = ((s.take (N - 1)).map fun u => sigmoid (u + (-a - 7))).sum
        + (sigmoid (-7) + ((s.drop (N - 1 + 1)).map fun u => sigmoid (u + (-a - 7))).sum) - N := by
      unfold lmlF
      conv_lhs => rw [hsp]
      rw [List.map_append, List.sum_append, List.map_cons, List.sum_cons]
      congr 4
      ring
    have b1 : ((s.take (N - 1)).map fun u => sigmoid (u + (-a - 7))).sum ≤ (N - 1 : ℕ) * 1 := by
      have := sum_le_card (l := (s.take (N - 1)).map fun u => sigmoid (u + (-a - 7))) (c := 1)
        (by
          intro v hv
          obtain ⟨u, _, rfl⟩ := List.mem_map.mp hv
          exact sigmoid_le_one _)
      rwa [List.length_map, hl1] at this
    have b2 : ((s.drop (N - 1 + 1)).map fun u => sigmoid (u + (-a - 7))).sum
        ≤ (x.length - N : ℕ) * sigmoid (-7) := by
      have := sum_le_card (l := (s.drop (N - 1 + 1)).map fun u => sigmoid (u + (-a - 7)))
        (c := sigmoid (-7))
        (by
          intro v hv
          obtain ⟨u, hu, rfl⟩ := List.mem_map.mp hv
          exact sigmoid_le (by linarith [hle u hu]))
      rwa [List.length_map, hl2] at this
    have c1 : ((N - 1 : ℕ) : ℝ) = N - 1 := by rw [Nat.cast_sub hN]; simp
    have c2 : ((x.length - N : ℕ) : ℝ) = x.length - N := by rw [Nat.cast_sub hlen.le]
    rw [c1] at b1
    rw [c2] at b2
    rw [e]
    have : (1 + ((x.length : ℝ) - N)) * sigmoid (-7) < 1 := by
      calc (1 + ((x.length : ℝ) - N)) * sigmoid (-7) < (1 + exp 7) * sigmoid (-7) := by
            exact mul_lt_mul_of_pos_right (by linarith) h7p
        _ = 1 := by rw [mul_comm]; exact h7
    linarith
  · rw [← lmlF_perm (sortDesc_perm x)]
    obtain ⟨s, hs'⟩ : ∃ s, sortDesc x = s := ⟨_, rfl⟩
    rw [hs'] at hlen' hs ⊢
    set a := s.getD N 0 with ha
    have hsp := split_at (l := s) (k := N) (by omega)
    rw [← ha] at hsp
    have hl1 : (s.take N).length = N := by rw [List.length_take]; omega
    have hge : ∀ u ∈ s.take N, a ≤ u := by
      rw [hsp, List.pairwise_append] at hs
      intro u hu
      exact hs.2.2 u hu a (by simp)
    have e : lmlF s N (-a + 7) = ((s.take N).map fun u => sigmoid (u + (-a + 7))).sum
        + (sigmoid 7 + ((s.drop (N + 1)).map fun u => sigmoid (u + (-a + 7))).sum) - N := by
      unfold lmlF
      conv_lhs => rw [hsp]
      rw [List.map_append, List.sum_append, List.map_cons, List.sum_cons]
      congr 4
      ring
    have b1 : (N : ℝ) * sigmoid 7 ≤ ((s.take N).map fun u => sigmoid (u + (-a + 7))).sum := by
      have := card_le_sum (l := (s.take N).map fun u => sigmoid (u + (-a + 7))) (c := sigmoid 7)
        (by
          intro v hv
          obtain ⟨u, hu, rfl⟩ := List.mem_map.mp hv
          exact sigmoid_le (by linarith [hge u hu]))
      rwa [List.length_map, hl1] at this
    have b2 : 0 ≤ ((s.drop (N + 1)).map fun u => sigmoid (u + (-a + 7))).sum := by
      refine List.sum_nonneg fun v hv => ?_
      obtain ⟨u, _, rfl⟩ := List.mem_map.mp hv
      exact sigmoid_nonneg _
    have h7' : sigmoid 7 = 1 - sigmoid (-7) := by rw [sigmoid_neg]; ring
    rw [e]
    have : ((N : ℝ) + 1) * sigmoid (-7) < 1 := by
      calc ((N : ℝ) + 1) * sigmoid (-7) < (1 + exp 7) * sigmoid (-7) := by
            exact mul_lt_mul_of_pos_right (by linarith) h7p
        _ = 1 := by rw [mul_comm]; exact h7
    rw [h7'] at b1 ⊢
    nlinarith

end Verif.Dcem
