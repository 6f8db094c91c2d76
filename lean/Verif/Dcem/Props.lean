import Verif.Dcem.Model
import Verif.Dcem.LmlProps
import Mathlib.Data.Fin.Tuple.Sort

/-!
# The step of DCEM (C54)

`argsort` enters through its contract `Sorts`: it returns an order in which the costs do not
decrease (which of several such orders is left open).
-/

namespace Verif.Dcem
open Real
variable {S D : ℕ}

/-- The contract of `argsort`. -/
def Sorts (argsort : (Fin S → ℝ) → Equiv.Perm (Fin S)) : Prop :=
  ∀ (f : Fin S → ℝ) (i j : Fin S), i ≤ j → f (argsort f i) ≤ f (argsort f j)

/-! ## Splitting the vector -/

/-- The pieces have the lengths of the variables and, put together, are the vector: every entry
goes to exactly one variable. -/
theorem split_covers (dofs : List ℕ) (mu : List ℝ) (h : mu.length = dofs.sum) :
    (muVecToDict 0 dofs mu).map List.length = dofs ∧ (muVecToDict 0 dofs mu).flatten = mu := by
  have gen : ∀ (ds : List ℕ) (idx : ℕ), mu.length = idx + ds.sum →
      (muVecToDict idx ds mu).map List.length = ds ∧ (muVecToDict idx ds mu).flatten = mu.drop idx := by
    intro ds
    induction ds with
    | nil =>
      intro idx hl
      have : mu.length ≤ idx := by simp at hl; omega
      exact ⟨rfl, by rw [List.drop_eq_nil_of_le this]; rfl⟩
    | cons d ds ih =>
      intro idx hl
      rw [List.sum_cons] at hl
      obtain ⟨h1, h2⟩ := ih (idx + d) (by omega)
      refine ⟨?_, ?_⟩
      · rw [muVecToDict, List.map_cons, h1, List.length_take, List.length_drop]
        congr 1
        omega
      · rw [muVecToDict, List.flatten_cons, h2, ← List.drop_drop, List.take_append_drop]
  simpa using gen dofs 0 (by simpa using h)

example : muVecToDict 0 [2, 1] [1, 2, 3] = [[1, 2], [3]] := by simp [muVecToDict]

/-- A step that gets through its shape checks has only variables whose tensors are as wide as their
number of degrees of freedom: SO2 and SE2 variables make it raise. -/
theorem shapes_need_flat (vars : List (ℕ × ℕ)) :
    shapesFit vars = true ↔ ∀ v ∈ vars, v.1 = v.2 := by
  have fits : ∀ (m : ℕ) (vs : List (ℕ × ℕ)) (idx : ℕ), m = idx + (vs.map Prod.snd).sum →
      (slicesFit m idx vs = true ↔ ∀ v ∈ vs, v.1 = v.2) := by
    intro m vs
    induction vs with
    | nil => intro idx _; simp [slicesFit]
    | cons v vs ih =>
      intro idx hm
      obtain ⟨w, d⟩ := v
      rw [List.map_cons, List.sum_cons] at hm
      have hs : sliceLen m idx d = d := by simp only [sliceLen]; omega
      rw [slicesFit, Bool.and_eq_true, decide_eq_true_eq, hs, ih (idx + d) (by simp only at hm; omega)]
      constructor
      · rintro ⟨h1, h2⟩ v hv
        rcases List.mem_cons.mp hv with rfl | hv
        · exact h1.symm
        · exact h2 v hv
      · intro h
        exact ⟨(h (w, d) (by simp)).symm, fun v hv => h v (by simp [hv])⟩
  unfold shapesFit
  constructor
  · intro h
    simp only at h
    cases hb : broadcastW (vars.map Prod.fst).sum (vars.map Prod.snd).sum with
    | none => rw [hb] at h; simp at h
    | some m =>
      rw [hb] at h
      simp only [Bool.and_eq_true, decide_eq_true_eq] at h
      exact (fits m vars 0 (by omega)).mp h.1
  · intro h
    have e : (vars.map Prod.fst) = vars.map Prod.snd := List.map_congr_left h
    simp only [e, broadcastW, if_true, Bool.and_eq_true, decide_eq_true_eq, and_true]
    exact (fits _ vars 0 (by omega)).mpr h

/-- A pose (SE2, width 4) next to a point; two vectors. -/
example : shapesFit [(4, 3), (2, 2)] = false ∧ shapesFit [(3, 3), (2, 2)] = true := by decide

/-! ## Weighted averages -/

theorem newMu_mem {w : Fin S → ℝ} {N : ℕ} (hw : ∀ s, 0 ≤ w s) (hsum : ∑ s, w s = N) (hN : 1 ≤ N)
    {X : Fin S → Fin D → ℝ} {d : Fin D} {lo hi : ℝ} (h : ∀ s, lo ≤ X s d ∧ X s d ≤ hi) :
    lo ≤ newMu w N X d ∧ newMu w N X d ≤ hi := by
  have hN' : (0 : ℝ) < N := by exact_mod_cast hN
  unfold newMu
  rw [le_div_iff₀ hN', div_le_iff₀ hN', ← hsum, Finset.mul_sum, Finset.mul_sum]
  constructor
  · exact Finset.sum_le_sum fun s _ => by nlinarith [hw s, (h s).1]
  · exact Finset.sum_le_sum fun s _ => by nlinarith [hw s, (h s).2]

theorem newSigma_ge (w : Fin S → ℝ) (N : ℕ) (eps : ℝ) (X : Fin S → Fin D → ℝ) (mu : Fin D → ℝ)
    (d : Fin D) : eps ≤ newSigma w N eps X mu d := by
  unfold newSigma
  linarith [Real.sqrt_nonneg ((∑ s, w s * (X s d - mu d) ^ 2) / N)]

/-! ## Hard elites (`temp` is `None` or infinite) -/

/-- The elite set: the samples with weight 1. -/
def elite (order : Equiv.Perm (Fin S)) (N : ℕ) : Finset (Fin S) :=
  Finset.univ.filter fun s => (order.symm s).val < N

theorem elite_card (order : Equiv.Perm (Fin S)) {N : ℕ} (h : N ≤ S) : (elite order N).card = N := by
  have : elite order N = (Finset.univ.filter fun i : Fin S => i.val < N).map order.toEmbedding := by
    ext s
    simp only [elite, Finset.mem_filter, Finset.mem_univ, true_and, Finset.mem_map_equiv]
  rw [this, Finset.card_map, Fin.card_filter_val_lt, min_eq_right h]

theorem hard_sum (order : Equiv.Perm (Fin S)) (N : ℕ) (g : Fin S → ℝ) :
    ∑ s, hardWeights order N s * g s = ∑ s ∈ elite order N, g s := by
  rw [elite, Finset.sum_filter]
  exact Finset.sum_congr rfl fun s _ => by simp only [hardWeights]; split <;> simp

/-- **C54, hard elites.** With `1 ≤ n_elite ≤ n_sample` a step always succeeds; there is a set of
exactly `n_elite` samples, none costlier than a sample outside it; the new mean is their average, and
lies in every box that contains them; the new standard deviation is their (population) standard
deviation plus `1e-10`, hence positive, so the next step does not raise. -/
theorem hard_step (cfg : Cfg) (ht : cfg.temp = none) (h1 : 1 ≤ cfg.nElite) (hS : cfg.nElite ≤ S)
    (cost : (Fin D → ℝ) → ℝ) (noise : Fin S → Fin D → ℝ) (argsort : (Fin S → ℝ) → Equiv.Perm (Fin S))
    (hsort : Sorts argsort) (mu sigma : Fin D → ℝ) (hsig : ∀ d, 0 < sigma d) :
    ∃ mu' sigma' E, cemStep cfg cost noise argsort mu sigma = .ok (mu', sigma') ∧
      Finset.card E = cfg.nElite ∧
      (∀ s ∈ E, ∀ r, r ∉ E → cost (rsample mu sigma noise s) ≤ cost (rsample mu sigma noise r)) ∧
      (∀ d, mu' d = (∑ s ∈ E, (mu d + noise s d * sigma d)) / E.card) ∧
      (∀ d lo hi, (∀ s ∈ E, lo ≤ mu d + noise s d * sigma d ∧ mu d + noise s d * sigma d ≤ hi) →
        lo ≤ mu' d ∧ mu' d ≤ hi) ∧
      (∀ d, sigma' d = √((∑ s ∈ E, (mu d + noise s d * sigma d - mu' d) ^ 2) / E.card) + 1e-10) ∧
      ∀ d, 0 < sigma' d := by
  classical
  set X := rsample mu sigma noise with hX
  set f := fun s => cost (X s) with hf
  set o := argsort f with ho
  have hcard := elite_card o hS
  have hN' : (0 : ℝ) < cfg.nElite := by exact_mod_cast h1
  have hmu : ∀ d, newMu (hardWeights o cfg.nElite) cfg.nElite X d
      = (∑ s ∈ elite o cfg.nElite, (mu d + noise s d * sigma d)) / (elite o cfg.nElite).card := by
    intro d
    rw [newMu, hard_sum, hcard]
    rfl
  refine ⟨newMu (hardWeights o cfg.nElite) cfg.nElite X,
    newSigma (hardWeights o cfg.nElite) cfg.nElite 1e-10 X
      (newMu (hardWeights o cfg.nElite) cfg.nElite X), elite o cfg.nElite, ?_, hcard, ?_, hmu, ?_, ?_, ?_⟩
  · rw [cemStep, if_pos hsig]
    simp only [weights, ht]
    rfl
  · intro s hs r hr
    simp only [elite, Finset.mem_filter, Finset.mem_univ, true_and, not_lt] at hs hr
    have := hsort f (o.symm s) (o.symm r) (by rw [Fin.le_def]; omega)
    rw [← ho, Equiv.apply_symm_apply, Equiv.apply_symm_apply] at this
    exact this
  · intro d lo hi h
    rw [hmu d, hcard, le_div_iff₀ hN', div_le_iff₀ hN']
    have e : (cfg.nElite : ℝ) = ((elite o cfg.nElite).card : ℝ) := by rw [hcard]
    constructor
    · rw [e, mul_comm, ← nsmul_eq_mul]
      exact Finset.card_nsmul_le_sum _ _ _ fun s hs => (h s hs).1
    · rw [e, mul_comm, ← nsmul_eq_mul]
      exact Finset.sum_le_card_nsmul _ _ _ fun s hs => (h s hs).2
  · intro d
    rw [newSigma, hard_sum, hcard]
    rfl
  · intro d
    exact lt_of_lt_of_le (by norm_num) (newSigma_ge _ _ _ _ _ d)

/-- The elites depend on the costs only through their order: a strictly increasing transformation of
the cost that leaves `argsort` its choice does not change the step. -/
theorem hard_monotone_invariant (cfg : Cfg) (ht : cfg.temp = none) (cost : (Fin D → ℝ) → ℝ) (φ : ℝ → ℝ)
    (noise : Fin S → Fin D → ℝ) (argsort : (Fin S → ℝ) → Equiv.Perm (Fin S))
    (hφ : ∀ f : Fin S → ℝ, argsort (fun s => φ (f s)) = argsort f) (mu sigma : Fin D → ℝ) :
    cemStep cfg (fun x => φ (cost x)) noise argsort mu sigma = cemStep cfg cost noise argsort mu sigma := by
  unfold cemStep
  simp only [weights, ht]
  rw [hφ fun s => cost (rsample mu sigma noise s)]

/-! ## Soft weights, one elite -/

theorem softmax_pos [NeZero S] (f : Fin S → ℝ) (temp : ℝ) (s : Fin S) : 0 < softmax f temp s :=
  div_pos (exp_pos _) (Finset.sum_pos (fun _ _ => exp_pos _) Finset.univ_nonempty)

theorem softmax_sum [NeZero S] (f : Fin S → ℝ) (temp : ℝ) : ∑ s, softmax f temp s = 1 := by
  simp only [softmax]
  rw [← Finset.sum_div]
  exact div_self (Finset.sum_pos (fun _ _ => exp_pos _) Finset.univ_nonempty).ne'

/-- Normalizing keeps the order of the costs. -/
theorem normCost_lt (b : Bool) (f : Fin S → ℝ) (s r : Fin S) :
    normCost b f s < normCost b f r ↔ f s < f r := by
  unfold normCost
  split
  · have : 0 < std f + 1e-6 := by
      have := Real.sqrt_nonneg ((∑ s, (f s - mean f) ^ 2) / (S - 1 : ℝ))
      unfold std
      linarith [show (0 : ℝ) < 1e-6 by norm_num]
    rw [div_lt_div_iff_of_pos_right this]
    constructor <;> intro h <;> linarith
  · rfl

/-- Normalized costs do not change when a constant is added to all costs. -/
theorem normCost_shift [NeZero S] (f : Fin S → ℝ) (c : ℝ) :
    normCost true (fun s => f s + c) = normCost true f := by
  have hm : mean (fun s => f s + c) = mean f + c := by
    unfold mean
    have : (S : ℝ) ≠ 0 := by exact_mod_cast NeZero.ne S
    rw [Finset.sum_add_distrib, Finset.sum_const, Finset.card_univ, Fintype.card_fin, nsmul_eq_mul]
    field_simp
  have hs : std (fun s => f s + c) = std f := by
    unfold std
    rw [hm]
    simp only [add_sub_add_right_eq_sub]
  funext s
  simp only [normCost, if_true, hm, hs, add_sub_add_right_eq_sub]

theorem sqrt_wsum_eq_zero {w : Fin S → ℝ} (hw : ∀ s, 0 < w s) {X : Fin S → Fin D → ℝ} {mu : Fin D → ℝ}
    {N : ℕ} (hN : 1 ≤ N) (d : Fin D) :
    newSigma w N 0 X mu d = 0 ↔ ∀ s, X s d = mu d := by
  have hN' : (0 : ℝ) < N := by exact_mod_cast hN
  have hnn : ∀ s ∈ Finset.univ, 0 ≤ w s * (X s d - mu d) ^ 2 :=
    fun s _ => mul_nonneg (hw s).le (sq_nonneg _)
  unfold newSigma
  rw [add_zero, Real.sqrt_eq_zero (div_nonneg (Finset.sum_nonneg hnn) hN'.le),
    div_eq_zero_iff, or_iff_left hN'.ne', Finset.sum_eq_zero_iff_of_nonneg hnn]
  constructor
  · intro h s
    have := h s (Finset.mem_univ s)
    rcases mul_eq_zero.mp this with h | h
    · exact absurd h (hw s).ne'
    · have := pow_eq_zero_iff (two_ne_zero) |>.mp h
      linarith
  · intro h s _
    rw [h s]; simp

/-- **C54, soft weights with `n_elite = 1`.** A step always succeeds; the new mean is a convex
combination of all samples with positive weights, larger for cheaper samples (for positive
temperature), so it lies in every box that contains the samples; the standard deviation is not
negative, and it is zero exactly when all samples agree in the coordinate. -/
theorem soft_one_step [NeZero S] (cfg : Cfg) {temp : ℝ} (ht : cfg.temp = some temp) (htp : 0 < temp)
    (h1 : cfg.nElite = 1) (cost : (Fin D → ℝ) → ℝ) (noise : Fin S → Fin D → ℝ)
    (argsort : (Fin S → ℝ) → Equiv.Perm (Fin S)) (mu sigma : Fin D → ℝ) (hsig : ∀ d, 0 < sigma d) :
    ∃ mu' sigma', ∃ w : Fin S → ℝ, cemStep cfg cost noise argsort mu sigma = .ok (mu', sigma') ∧
      (∀ s, 0 < w s) ∧ ∑ s, w s = 1 ∧ (∀ d, mu' d = ∑ s, w s * (mu d + noise s d * sigma d)) ∧
      (∀ s r, w r < w s ↔ cost (rsample mu sigma noise s) < cost (rsample mu sigma noise r)) ∧
      (∀ d lo hi, (∀ s, lo ≤ mu d + noise s d * sigma d ∧ mu d + noise s d * sigma d ≤ hi) →
        lo ≤ mu' d ∧ mu' d ≤ hi) ∧
      (∀ d, sigma' d = √(∑ s, w s * (mu d + noise s d * sigma d - mu' d) ^ 2)) ∧
      ∀ d, 0 ≤ sigma' d ∧ (sigma' d = 0 ↔ ∀ s r, noise s d = noise r d) := by
  classical
  set X := rsample mu sigma noise with hX
  set f := fun s => cost (X s) with hf
  set w := softmax (normCost cfg.normalize f) temp with hw
  have wpos : ∀ s, 0 < w s := softmax_pos _ _
  have wsum : ∑ s, w s = ((1 : ℕ) : ℝ) := by rw [hw, softmax_sum]; simp
  refine ⟨newMu w 1 X, newSigma w 1 0 X (newMu w 1 X), w, ?_, wpos, by simpa using wsum, ?_, ?_, ?_, ?_, ?_⟩
  · rw [cemStep, if_pos hsig]
    simp only [weights, ht, h1, if_true]
    rfl
  · intro d; simp [newMu, X, rsample]
  · intro s r
    have hden : 0 < ∑ q, exp (-normCost cfg.normalize f q * temp) :=
      Finset.sum_pos (fun _ _ => exp_pos _) Finset.univ_nonempty
    rw [hw]
    simp only [softmax]
    rw [div_lt_div_iff_of_pos_right hden, Real.exp_lt_exp, mul_lt_mul_iff_left₀ htp, neg_lt_neg_iff]
    exact normCost_lt cfg.normalize f s r
  · intro d lo hi h
    exact newMu_mem (fun s => (wpos s).le) wsum le_rfl h
  · intro d; simp [newSigma, X, rsample]
  · intro d
    refine ⟨newSigma_ge _ _ _ _ _ d, ?_⟩
    rw [sqrt_wsum_eq_zero wpos le_rfl d]
    have hX' : ∀ s r, X s d = X r d ↔ noise s d = noise r d := by
      intro s r
      simp only [X, rsample]
      constructor
      · intro h
        exact mul_right_cancel₀ (hsig d).ne' (add_left_cancel h)
      · intro h; rw [h]
    constructor
    · intro h s r
      exact (hX' s r).mp (by rw [h s, h r])
    · intro h s
      have hc : ∀ r, X r d = X s d := fun r => (hX' r s).mpr (h r s)
      simp only [newMu, hc]
      rw [← Finset.sum_mul, wsum]
      simp

/-- Then the next step raises `ValueError`, which the loop does not turn into its own error. -/
theorem zero_sigma_raises (cfg : Cfg) (cost : (Fin D → ℝ) → ℝ) (noise : Fin S → Fin D → ℝ)
    (argsort : (Fin S → ℝ) → Equiv.Perm (Fin S)) (mu sigma : Fin D → ℝ) (d : Fin D) (h : sigma d = 0) :
    cemStep cfg cost noise argsort mu sigma = .error .valueError := by
  rw [cemStep, if_neg (fun h' => by have := h' d; rw [h] at this; exact lt_irrefl _ this)]

/-! ## Soft weights, several elites -/

theorem list_sum_getD (y : List ℝ) (hy : y.length = S) : ∑ s : Fin S, y.getD s 0 = y.sum := by
  subst hy
  rw [← Fin.sum_univ_getElem y]
  exact Finset.sum_congr rfl fun i _ => by simp [List.getD]

/-- The entry of a list built from a function. -/
theorem getD_ofFn (g : Fin S → ℝ) (s : Fin S) : (List.ofFn g).getD s 0 = g s := by
  simp [List.getD]

/-- The default search of `LML` reaches its tolerance: it holds for all costs used in practice. -/
def SpreadOk (cfg : Cfg) (x : List ℝ) : Prop :=
  (sortDesc x).getD (cfg.nElite - 1) 0 - (sortDesc x).getD cfg.nElite 0 + 14
    ≤ cfg.lmlEps * (((10 : ℕ) : ℝ) - 1) ^ (100 - 1)

/-- **C54, soft weights with `n_elite > 1`.** With fewer elites than samples and at most a thousand
samples, a step succeeds; the weights are strictly between 0 and 1, larger for cheaper samples, and
sum to `n_elite` up to `n_sample * lml_eps / 8`; the mean is their weighted sum over `n_elite`, so it
lies in every box containing the samples up to that relative error; the standard deviation is not
negative, and positive unless all samples agree. -/
theorem soft_many_step (cfg : Cfg) {temp : ℝ} (ht : cfg.temp = some temp) (htp : 0 < temp)
    (h1 : 2 ≤ cfg.nElite) (hS : cfg.nElite < S) (hk : S ≤ 1000) (cost : (Fin D → ℝ) → ℝ)
    (noise : Fin S → Fin D → ℝ) (argsort : (Fin S → ℝ) → Equiv.Perm (Fin S)) (mu sigma : Fin D → ℝ)
    (hsig : ∀ d, 0 < sigma d)
    (hspread : SpreadOk cfg (List.ofFn fun s => -normCost cfg.normalize
      (fun s => cost (rsample mu sigma noise s)) s * temp)) :
    ∃ mu' sigma', ∃ w : Fin S → ℝ, cemStep cfg cost noise argsort mu sigma = .ok (mu', sigma') ∧
      (∀ s, 0 < w s ∧ w s < 1) ∧ |∑ s, w s - cfg.nElite| ≤ S * cfg.lmlEps / 8 ∧
      (∀ d, mu' d = (∑ s, w s * (mu d + noise s d * sigma d)) / cfg.nElite) ∧
      (∀ s r, w r < w s ↔ cost (rsample mu sigma noise s) < cost (rsample mu sigma noise r)) ∧
      (∀ d lo hi R, (∀ s, lo ≤ mu d + noise s d * sigma d ∧ mu d + noise s d * sigma d ≤ hi) →
        |lo| ≤ R → |hi| ≤ R → lo - R * (S * cfg.lmlEps / (8 * cfg.nElite)) ≤ mu' d ∧
          mu' d ≤ hi + R * (S * cfg.lmlEps / (8 * cfg.nElite))) ∧
      ∀ d, 0 ≤ sigma' d ∧ (sigma' d = 0 → ∀ s r, noise s d = noise r d) := by
  classical
  set X := rsample mu sigma noise with hX
  set f := fun s => cost (X s) with hf
  set g := normCost cfg.normalize f with hg
  set x := List.ofFn fun s => -g s * temp with hx
  have hlen : x.length = S := by rw [hx, List.length_ofFn]
  have hN' : (0 : ℝ) < cfg.nElite := by
    have : 0 < cfg.nElite := by omega
    exact_mod_cast this
  obtain ⟨y, nu, e, hyl, hy01, hyo, hysum, -, -⟩ := lml_weights (N := cfg.nElite) (branch := 10)
    (n_iter := 100) (eps := cfg.lmlEps) (x := x) (by omega) (by omega) (by omega) (by norm_num)
    (by norm_num) hspread
  rw [hlen] at hysum hyl
  set w : Fin S → ℝ := fun s => y.getD s 0 with hw
  have hmem : ∀ s : Fin S, w s ∈ y := by
    intro s
    have hs : s.val < y.length := by rw [hyl]; exact s.isLt
    have : w s = y[s.val] := by simp [hw, List.getD, hs]
    rw [this]
    exact List.getElem_mem hs
  have w01 : ∀ s, 0 < w s ∧ w s < 1 := fun s => hy01 _ (hmem s)
  have wsum : ∑ s, w s = y.sum := list_sum_getD y hyl
  refine ⟨newMu w cfg.nElite X, newSigma w cfg.nElite 0 X (newMu w cfg.nElite X), w, ?_, w01, ?_, ?_,
    ?_, ?_, ?_⟩
  · rw [cemStep, if_pos hsig]
    simp only [weights, ht]
    rw [if_neg (show ¬ cfg.nElite = 1 by omega)]
    rw [show lml cfg.nElite 10 100 cfg.lmlEps
      (List.ofFn fun s => -normCost cfg.normalize (fun s => cost (rsample mu sigma noise s)) s * temp)
        = some y from e]
  · rw [wsum]; exact hysum
  · intro d; rfl
  · intro s r
    have := hyo r s (by rw [hlen]; exact r.isLt) (by rw [hlen]; exact s.isLt)
    rw [hx, getD_ofFn, getD_ofFn, mul_lt_mul_iff_left₀ htp, neg_lt_neg_iff, hg, normCost_lt] at this
    exact this
  · intro d lo hi R h hlo hhi
    have hdev : |(∑ s, w s) / cfg.nElite - 1| ≤ S * cfg.lmlEps / (8 * cfg.nElite) := by
      rw [show (∑ s, w s) / cfg.nElite - 1 = (∑ s, w s - cfg.nElite) / cfg.nElite by field_simp,
        abs_div, abs_of_pos hN', div_le_iff₀ hN', wsum]
      calc _ ≤ _ := hysum
        _ = _ := by field_simp
    set δ : ℝ := S * cfg.lmlEps / (8 * cfg.nElite)
    have hδ : 0 ≤ δ := le_trans (abs_nonneg _) hdev
    set q := (∑ s, w s) / cfg.nElite with hq
    have b1 : lo * q ≤ newMu w cfg.nElite X d := by
      rw [newMu, le_div_iff₀ hN', hq, mul_assoc, div_mul_cancel₀ _ hN'.ne', Finset.mul_sum]
      exact Finset.sum_le_sum fun s _ => by
        have := mul_le_mul_of_nonneg_left (h s).1 (w01 s).1.le
        simp only [X, rsample]
        linarith
    have b2 : newMu w cfg.nElite X d ≤ hi * q := by
      rw [newMu, div_le_iff₀ hN', hq, mul_assoc, div_mul_cancel₀ _ hN'.ne', Finset.mul_sum]
      exact Finset.sum_le_sum fun s _ => by
        have := mul_le_mul_of_nonneg_left (h s).2 (w01 s).1.le
        simp only [X, rsample]
        linarith
    have key : ∀ v, |v| ≤ R → |v * q - v| ≤ R * δ := by
      intro v hv
      rw [show v * q - v = v * (q - 1) by ring, abs_mul]
      exact mul_le_mul hv hdev (abs_nonneg _) (le_trans (abs_nonneg _) hv)
    constructor
    · have := abs_le.mp (key lo hlo); linarith [this.1]
    · have := abs_le.mp (key hi hhi); linarith [this.2]
  · intro d
    refine ⟨newSigma_ge _ _ _ _ _ d, ?_⟩
    rw [sqrt_wsum_eq_zero (fun s => (w01 s).1) (by omega) d]
    intro h s r
    have : X s d = X r d := by rw [h s, h r]
    simp only [X, rsample] at this
    exact mul_right_cancel₀ (hsig d).ne' (add_left_cancel this)

/-! ## More elites than samples -/

/-- Finding: when `n_elite` exceeds the number of samples the sum of the samples is still divided by
`n_elite`: the new mean is the average of the samples times `n_sample / n_elite < 1`. -/
theorem too_many_elites [NeZero S] (cfg : Cfg) (ht : cfg.temp = none) (hS : S < cfg.nElite)
    (cost : (Fin D → ℝ) → ℝ) (noise : Fin S → Fin D → ℝ) (argsort : (Fin S → ℝ) → Equiv.Perm (Fin S))
    (mu sigma : Fin D → ℝ) (hsig : ∀ d, 0 < sigma d) :
    ∃ mu' sigma', cemStep cfg cost noise argsort mu sigma = .ok (mu', sigma') ∧
      ∀ d, mu' d = (S : ℝ) / cfg.nElite * mean fun s => mu d + noise s d * sigma d := by
  set w := hardWeights (argsort fun s => cost (rsample mu sigma noise s)) cfg.nElite with hw
  refine ⟨newMu w cfg.nElite (rsample mu sigma noise), newSigma w cfg.nElite 1e-10
    (rsample mu sigma noise) (newMu w cfg.nElite (rsample mu sigma noise)), ?_, ?_⟩
  · rw [cemStep, if_pos hsig]
    simp only [weights, ht]
    rfl
  · intro d
    have hall : elite (argsort fun s => cost (rsample mu sigma noise s)) cfg.nElite = Finset.univ := by
      rw [elite, Finset.filter_true_of_mem]
      intro s _
      exact lt_trans (Fin.isLt _) hS
    have h0 : (S : ℝ) ≠ 0 := by exact_mod_cast NeZero.ne S
    rw [newMu, hw, hard_sum, hall, mean]
    simp only [rsample]
    rw [div_mul_div_comm, mul_comm (S : ℝ), mul_div_mul_right _ _ h0]

/-- So the mean leaves the range of the samples: here all samples are at 5, and it is at 3. -/
theorem too_many_elites_leaves_range : ∃ mu' sigma', cemStep (S := 3) (D := 1) ⟨5, none, true, 1e-3⟩
    (fun v => v 0 ^ 2) (fun _ _ => 0) (fun _ => 1) (fun _ => 5) (fun _ => 1) = .ok (mu', sigma') ∧
    mu' 0 = 3 := by
  obtain ⟨mu', sigma', h, hm⟩ := too_many_elites (S := 3) (D := 1) ⟨5, none, true, 1e-3⟩ rfl (by norm_num)
    (fun v => v 0 ^ 2) (fun _ _ => 0) (fun _ => 1) (fun _ => 5) (fun _ => 1) (fun _ => one_pos)
  refine ⟨mu', sigma', h, ?_⟩
  rw [hm 0]
  simp [mean]

/-! ## Non-vacuity -/

/-- A cost, three samples of one coordinate, and a sorting function. -/
noncomputable def demoSort : (Fin 3 → ℝ) → Equiv.Perm (Fin 3) := Tuple.sort

theorem demoSort_sorts : Sorts demoSort := fun f _ _ h => Tuple.monotone_sort f h

example : ∃ mu' sigma', cemStep (S := 3) (D := 1) ⟨2, none, true, 1e-3⟩ (fun v => v 0 ^ 2)
    (fun s _ => (s.val : ℝ) - 1) demoSort (fun _ => 5) (fun _ => 1) = .ok (mu', sigma') ∧
    4 ≤ mu' 0 ∧ mu' 0 ≤ 6 ∧ 0 < sigma' 0 := by
  obtain ⟨mu', sigma', E, h, -, -, -, hb, -, hs⟩ := hard_step (S := 3) (D := 1) ⟨2, none, true, 1e-3⟩ rfl
    (by norm_num) (by norm_num) (fun v => v 0 ^ 2) (fun s _ => (s.val : ℝ) - 1) demoSort demoSort_sorts
    (fun _ => 5) (fun _ => 1) (fun _ => one_pos)
  have := hb 0 4 6 (by intro s _; fin_cases s <;> norm_num)
  exact ⟨mu', sigma', h, this.1, this.2, hs 0⟩

example : ∃ mu' sigma', cemStep (S := 3) (D := 1) ⟨1, some 1, true, 1e-3⟩ (fun v => v 0 ^ 2)
    (fun s _ => (s.val : ℝ) - 1) demoSort (fun _ => 5) (fun _ => 1) = .ok (mu', sigma') ∧
    4 ≤ mu' 0 ∧ mu' 0 ≤ 6 ∧ 0 < sigma' 0 := by
  obtain ⟨mu', sigma', w, h, -, -, -, -, hb, -, hs⟩ := soft_one_step (S := 3) (D := 1)
    ⟨1, some 1, true, 1e-3⟩ rfl one_pos rfl (fun v => v 0 ^ 2) (fun s _ => (s.val : ℝ) - 1) demoSort
    (fun _ => 5) (fun _ => 1) (fun _ => one_pos)
  have := hb 0 4 6 (by intro s; fin_cases s <;> norm_num)
  refine ⟨mu', sigma', h, this.1, this.2, lt_of_le_of_ne (hs 0).1 fun h0 => ?_⟩
  have := (hs 0).2.mp h0.symm 0 1
  norm_num at this

/-- Three samples, two elites by `LML`, no normalization. -/
example : ∃ mu' sigma', cemStep (S := 3) (D := 1) ⟨2, some 1, false, 1e-3⟩ (fun v => v 0 ^ 2)
    (fun s _ => (s.val : ℝ) - 1) demoSort (fun _ => 5) (fun _ => 1) = .ok (mu', sigma') ∧
    3.9 ≤ mu' 0 ∧ mu' 0 ≤ 6.1 := by
  obtain ⟨mu', sigma', w, h, -, -, -, -, hb, -⟩ := soft_many_step (S := 3) (D := 1)
    ⟨2, some 1, false, 1e-3⟩ rfl one_pos (by norm_num) (by norm_num) (by norm_num) (fun v => v 0 ^ 2)
    (fun s _ => (s.val : ℝ) - 1) demoSort (fun _ => 5) (fun _ => 1) (fun _ => one_pos) (by
      refine lml_default_width ?_
      have m : ∀ v ∈ (List.ofFn fun s : Fin 3 => -normCost false (fun s => (rsample (fun _ => (5 : ℝ))
          (fun _ => 1) (fun s (_ : Fin 1) => (s.val : ℝ) - 1) s 0) ^ 2) s * 1), -36 ≤ v ∧ v ≤ 0 := by
        intro v hv
        obtain ⟨s, rfl⟩ := (List.mem_ofFn' _ v).mp hv
        simp only [normCost, rsample]
        fin_cases s <;> norm_num
      have a := m _ (sortDesc_mem (i := 1) (by simp))
      have b := m _ (sortDesc_mem (i := 2) (by simp))
      have : (36 : ℝ) ≤ 10 ^ 80 := by norm_num
      exact le_trans (b := 36) (by linarith [a.2, b.1]) this)
  have := hb 0 4 6 6 (by intro s; fin_cases s <;> norm_num) (by norm_num) (by norm_num)
  norm_num at this
  exact ⟨mu', sigma', h, by norm_num; linarith [this.1], by norm_num; linarith [this.2]⟩

end Verif.Dcem
