import Verif.Robust.LossProps
import Mathlib.Analysis.Calculus.Deriv.Pow
import Mathlib.Analysis.Calculus.Deriv.Add
import Mathlib.Analysis.Calculus.Deriv.Mul
/-!
C40: `RobustCostFunction` encodes the loss. Half the squared norm of `weighted_error()` is half of
`rho(‖w e‖²)`, and `weighted_jacobians_error()` gives the gradient of that quantity.
-/
namespace Verif.Robust
open scoped BigOperators

variable {d k : Nat}

theorem EPS_pos : 0 < EPS := by unfold EPS; norm_num

/-- Specification: the radius that applies to batch element `b`; a single radius is for all. -/
def radAt (radius : List ℝ) (b : Nat) : ℝ := if radius.length = 1 then radius.getD 0 0 else radius.getD b 0

/-- Elementwise operations on batches of compatible sizes do what they say. -/
theorem bin_spec {α β γ : Type} (f : α → β → γ) (as : List α) (bs : List β)
    (h : bs.length = 1 ∨ bs.length = as.length) (ha : as ≠ []) (a0 : α) (b0 : β) (c0 : γ) :
    ∃ cs, bin f as bs = some cs ∧ cs.length = as.length ∧
      ∀ i, i < as.length → cs.getD i c0 = f (as.getD i a0)
        (if bs.length = 1 then bs.getD 0 b0 else bs.getD i b0) := by
  match as, bs, h, ha with
  | [a], [b], _, _ =>
    refine ⟨[f a b], rfl, rfl, ?_⟩
    intro i hi
    have : i = 0 := by simp at hi; omega
    subst this; simp
  | a :: a' :: as, [b], _, _ =>
    refine ⟨(a :: a' :: as).map (f · b), rfl, by simp, ?_⟩
    intro i hi
    simp [List.getD_eq_getElem?_getD, List.getElem?_eq_getElem hi, -List.map_cons]
  | [a], b :: b' :: bs, h, _ => simp at h
  | a :: a' :: as, [], h, _ => simp at h
  | [a], [], h, _ => simp at h
  | a :: a' :: as, b :: b' :: bs, h, _ =>
    have hl : (a :: a' :: as).length = (b :: b' :: bs).length := by
      rcases h with h | h
      · simp at h
      · exact h.symm
    refine ⟨List.zipWith f (a :: a' :: as) (b :: b' :: bs), by rw [bin, if_pos hl] <;> simp, ?_, ?_⟩
    · rw [List.length_zipWith, hl, min_self]
    · intro i hi
      have hi' : i < (b :: b' :: bs).length := hl ▸ hi
      rw [if_neg (by simp)]
      simp only [List.getD_eq_getElem?_getD, List.getElem?_zipWith, List.getElem?_eq_getElem hi,
        List.getElem?_eq_getElem hi']
      simp

/-- C40, value: with one loss for the whole error vector, the squared norm of the robust weighted error
is `rho(‖w e‖²)` plus `dim * 1e-20`, for every batch element. -/
theorem weightedError_norm (L : Loss) (hd : 0 < d) (e : List (Fin d → ℝ)) (radius : List ℝ)
    (he : e ≠ []) (hr : radius.length = 1 ∨ radius.length = e.length)
    (hL : ∀ b, b < e.length → 0 ≤ L.eval (sqn (e.getD b 0)) (radAt radius b)) :
    ∃ h, weightedError L false e radius = some h ∧ h.length = e.length ∧
      ∀ b, b < e.length →
        sqn (h.getD b 0) = L.eval (sqn (e.getD b 0)) (radAt radius b) + d * EPS := by
  obtain ⟨cs, h1, h2, h3⟩ := bin_spec L.eval (e.map sqn) radius (by simpa using hr) (by simpa using he)
    (sqn (0 : Fin d → ℝ)) 0 0
  rw [List.length_map] at h2 h3
  refine ⟨_, by simp [weightedError, h1]; rfl, by simpa using h2, ?_⟩
  intro b hb
  have h4 := h3 b hb
  have hbe : ((e.map sqn).getD b (sqn (0 : Fin d → ℝ))) = sqn (e.getD b 0) := by
    simp [List.getD_eq_getElem?_getD, List.getElem?_eq_getElem hb]
  rw [hbe] at h4
  have h5 := hL b hb
  unfold radAt at h5 ⊢
  rw [← h4] at h5 ⊢
  have hbc : b < cs.length := by rw [h2]; exact hb
  have h6 : cs.getD b 0 = cs[b] := by simp [List.getD_eq_getElem?_getD, List.getElem?_eq_getElem hbc]
  rw [h6] at h5 ⊢
  simp only [List.getD_eq_getElem?_getD, List.getElem?_map, List.getElem?_eq_getElem hbc, Option.map_some,
    Option.getD_some, sqn]
  have hd' : (0:ℝ) < d := by exact_mod_cast hd
  rw [Finset.sum_const, Finset.card_univ, Fintype.card_fin, Real.sq_sqrt (by
    have := EPS_pos; positivity)]
  simp only [nsmul_eq_mul]
  field_simp

theorem flatten_ofFn {α : Type} (l : List (Fin d → α)) :
    (l.map List.ofFn).flatten.length = l.length * d ∧
    ∀ b (hb : b < l.length) (i : Fin d) (a0 : α),
      (l.map List.ofFn).flatten.getD (b * d + i) a0 = l[b] i := by
  induction l with
  | nil => simp
  | cons x xs ih =>
    constructor
    · rw [List.map_cons, List.flatten_cons, List.length_append, ih.1, List.length_ofFn,
        List.length_cons]; ring
    · intro b hb i a0
      simp only [List.map_cons, List.flatten_cons]
      cases b with
      | zero =>
        simp [List.getD_eq_getElem?_getD, List.getElem?_append, i.2]
      | succ b =>
        have h1 : (b + 1) * d + i = d + (b * d + i) := by ring
        rw [h1]
        have := ih.2 b (by simpa using hb) i a0
        simp only [List.getD_eq_getElem?_getD] at this ⊢
        rw [List.getElem?_append_right (by simp)]
        simpa using this

theorem unflat_spec (l : List ℝ) (n : Nat) (hd : 0 < d) (hl : l.length = n * d) :
    (unflat d l).length = n ∧ ∀ b, b < n → ∀ i : Fin d, (unflat d l).getD b 0 i = l.getD (b * d + i) 0 := by
  have hn : l.length / d = n := by rw [hl]; exact Nat.mul_div_cancel _ hd
  unfold unflat
  rw [hn]
  refine ⟨by simp, ?_⟩
  intro b hb i
  simp [List.getD_eq_getElem?_getD, hb]

/-- C40, value, with `flatten_dims`: the loss is applied to each component of the error separately, for
one radius. -/
theorem weightedError_norm_flatten_partial (L : Loss) (hd : 0 < d) (e : List (Fin d → ℝ)) (r : ℝ)
    (he : e ≠ []) (hL : ∀ x, 0 ≤ x → 0 ≤ L.eval x r) :
    ∃ h, weightedError L true e [r] = some h ∧ h.length = e.length ∧
      ∀ b, b < e.length →
        sqn (h.getD b 0) = (∑ i, L.eval (e.getD b 0 i ^ 2) r) + d * EPS := by
  obtain ⟨f1, f2⟩ := flatten_ofFn e
  have hlen : 0 < e.length := List.length_pos_iff.2 he
  have hfl : (flat e).length = e.length * d := f1
  obtain ⟨cs, h1, h2, h3⟩ := bin_spec L.eval ((flat e).map (· ^ 2)) [r] (Or.inl rfl)
    (by rw [Ne, List.map_eq_nil_iff, ← List.length_eq_zero_iff, hfl]; exact (Nat.mul_pos hlen hd).ne') 0 0 0
  rw [List.length_map] at h2 h3
  obtain ⟨u1, u2⟩ := unflat_spec (cs.map fun a => Real.sqrt (a + EPS)) e.length hd
    (by rw [List.length_map, h2, hfl])
  refine ⟨_, by simp [weightedError, h1], u1, ?_⟩
  intro b hb
  have hd' : (d : ℝ) * EPS = ∑ _i : Fin d, EPS := by simp
  rw [hd', ← Finset.sum_add_distrib]
  unfold sqn
  apply Finset.sum_congr rfl
  intro i _
  rw [u2 b hb i]
  have hi : b * d + i < (flat e).length := by
    rw [hfl]
    calc b * d + i < b * d + d := by omega
      _ = (b + 1) * d := by ring
      _ ≤ e.length * d := Nat.mul_le_mul_right _ hb
  have h4 := h3 _ hi
  have h5 : ((flat e).map (· ^ 2)).getD (b * d + i) 0 = e.getD b 0 i ^ 2 := by
    have := f2 b hb i 0
    simp only [List.getD_eq_getElem?_getD, List.getElem?_map] at this ⊢
    unfold flat at hi ⊢
    rw [List.getElem?_eq_getElem hi] at this ⊢
    simp only [Option.getD_some, Option.map_some] at this ⊢
    rw [this, List.getElem?_eq_getElem hb]
    rfl
  rw [h5] at h4
  simp only [List.length_singleton, if_true, List.getD_cons_zero] at h4
  have hic : b * d + i < cs.length := by rw [h2]; exact hi
  simp only [List.getD_eq_getElem?_getD, List.getElem?_map, List.getElem?_eq_getElem hic,
    Option.map_some, Option.getD_some] at h4 ⊢
  rw [h4, Real.sq_sqrt]
  have := hL _ (sq_nonneg ((e.getD b 0) i))
  have := EPS_pos
  simp only [List.getD_eq_getElem?_getD] at *
  linarith

/-- The full C40 is false with `flatten_dims`: for an error of more than one dimension, a batch of more
than one element and one radius per batch element, evaluation raises (the squared errors have
`batch * dim` rows, the radius `batch`). Vectorization always makes the radius a full batch, so it
raises for every group of two or more such cost functions. -/
theorem flatten_batched_radius_raises (L : Loss) (J : List (Fin d → Fin k → ℝ)) (e : List (Fin d → ℝ))
    (radius : List ℝ) (hd : 1 < d) (he : 1 < e.length) (hr : radius.length = e.length) :
    weightedError L true e radius = none ∧ weightedJacErr L true J e radius = none := by
  have hfl : (flat e).length = e.length * d := (flatten_ofFn e).1
  have key : ∀ f : ℝ → ℝ → ℝ, bin f ((flat e).map (· ^ 2)) radius = none := by
    intro f
    have h1 : ((flat e).map (· ^ 2)).length ≠ radius.length := by
      rw [List.length_map, hfl, hr]; nlinarith
    have h2 : ((flat e).map (· ^ 2)).length ≠ 1 := by
      rw [List.length_map, hfl]; nlinarith
    have h3 : radius.length ≠ 1 := by omega
    generalize (flat e).map (· ^ 2) = as at *
    unfold bin
    split
    · simp at h2
    · simp at h3
    · rw [if_neg h1]
  constructor
  · simp [weightedError, key]
  · simp [weightedJacErr, key]

/-- C40, linearization: for every batch element, `J~ᵀ e~ = (rho'(‖w e‖²) + 1e-20) Jᵀ e`. -/
theorem weightedJacErr_irls (L : Loss) (J : List (Fin d → Fin k → ℝ)) (e : List (Fin d → ℝ))
    (radius : List ℝ) (hJ : J.length = e.length)
    (he : e ≠ []) (hr : radius.length = 1 ∨ radius.length = e.length)
    (hL : ∀ b, b < e.length → 0 ≤ L.lin (sqn (e.getD b 0)) (radAt radius b)) :
    ∃ J' e', weightedJacErr L false J e radius = some (J', e') ∧ J'.length = e.length ∧
      e'.length = e.length ∧
      ∀ b, b < e.length → ∀ c, ∑ i, J'.getD b 0 i c * e'.getD b 0 i =
        (L.lin (sqn (e.getD b 0)) (radAt radius b) + EPS) * ∑ i, J.getD b 0 i c * e.getD b 0 i := by
  obtain ⟨cs, h1, h2, h3⟩ := bin_spec L.lin (e.map sqn) radius (by simpa using hr) (by simpa using he)
    (sqn (0 : Fin d → ℝ)) 0 0
  rw [List.length_map] at h2 h3
  have hc0 : cs ≠ [] := by
    rw [Ne, ← List.length_eq_zero_iff, h2, List.length_eq_zero_iff]; exact he
  obtain ⟨js, j1, j2, j3⟩ := bin_spec (fun a (M : Fin d → Fin k → ℝ) => fun i c => a * M i c)
    (cs.map fun a => Real.sqrt (a + EPS)) J (Or.inr (by rw [List.length_map, h2, hJ]))
    (by simpa using hc0) (Real.sqrt (0 + EPS)) 0 0
  obtain ⟨es, e1, e2, e3⟩ := bin_spec (fun a (x : Fin d → ℝ) => fun i => a * x i)
    (cs.map fun a => Real.sqrt (a + EPS)) e (Or.inr (by rw [List.length_map, h2]))
    (by simpa using hc0) (Real.sqrt (0 + EPS)) 0 0
  rw [List.length_map, h2] at j2 j3 e2 e3
  refine ⟨js, es, by simp [weightedJacErr, h1, j1, e1], j2, e2, ?_⟩
  intro b hb c
  rw [j3 b hb, e3 b hb]
  have hJb : (if J.length = 1 then J.getD 0 0 else J.getD b 0) = J.getD b 0 := by
    split
    next h => have : b = 0 := by omega
              rw [this]
    next => rfl
  have heb : (if e.length = 1 then e.getD 0 0 else e.getD b 0) = e.getD b 0 := by
    split
    next h => have : b = 0 := by omega
              rw [this]
    next => rfl
  rw [hJb, heb]
  have h4 := h3 b hb
  have hbe : ((e.map sqn).getD b (sqn (0 : Fin d → ℝ))) = sqn (e.getD b 0) := by
    simp [List.getD_eq_getElem?_getD, List.getElem?_eq_getElem hb]
  rw [hbe] at h4
  have h5 := hL b hb
  unfold radAt at h5 ⊢
  have hbc : b < cs.length := by rw [h2]; exact hb
  have h6 : (cs.map fun a => Real.sqrt (a + EPS)).getD b (Real.sqrt (0 + EPS)) =
      Real.sqrt (cs.getD b 0 + EPS) := by
    simp [List.getD_eq_getElem?_getD, List.getElem?_eq_getElem hbc]
  rw [h6, h4, Finset.mul_sum]
  apply Finset.sum_congr rfl
  intro i _
  have h7 := Real.mul_self_sqrt (show 0 ≤ L.lin (sqn (e.getD b 0))
    (if radius.length = 1 then radius.getD 0 0 else radius.getD b 0) + EPS by have := EPS_pos; linarith)
  generalize Real.sqrt (L.lin _ _ + EPS) = q at *
  rw [← h7]; ring

/-- C40, linearization with `flatten_dims`, for one radius: every component of the error is rescaled by
the derivative of its own loss. -/
theorem weightedJacErr_irls_flatten_partial (L : Loss) (hd : 0 < d) (J : List (Fin d → Fin k → ℝ))
    (e : List (Fin d → ℝ)) (r : ℝ) (hJ : J.length = e.length) (he : e ≠ [])
    (hL : ∀ x, 0 ≤ x → 0 ≤ L.lin x r) :
    ∃ J' e', weightedJacErr L true J e [r] = some (J', e') ∧ J'.length = e.length ∧
      e'.length = e.length ∧
      ∀ b, b < e.length → ∀ c, ∑ i, J'.getD b 0 i c * e'.getD b 0 i =
        ∑ i, (L.lin (e.getD b 0 i ^ 2) r + EPS) * (J.getD b 0 i c * e.getD b 0 i) := by
  obtain ⟨f1, f2⟩ := flatten_ofFn e
  obtain ⟨g1, g2⟩ := flatten_ofFn J
  have hlen : 0 < e.length := List.length_pos_iff.2 he
  have hfl : (flat e).length = e.length * d := f1
  obtain ⟨cs, h1, h2, h3⟩ := bin_spec L.lin ((flat e).map (· ^ 2)) [r] (Or.inl rfl)
    (by rw [Ne, List.map_eq_nil_iff, ← List.length_eq_zero_iff, hfl]; exact (Nat.mul_pos hlen hd).ne') 0 0 0
  rw [List.length_map] at h2 h3
  have hc0 : cs ≠ [] := by
    rw [Ne, ← List.length_eq_zero_iff, h2, hfl]; exact (Nat.mul_pos hlen hd).ne'
  obtain ⟨js, j1, j2, j3⟩ := bin_spec (fun a (M : Fin k → ℝ) => fun c => a * M c)
    (cs.map fun a => Real.sqrt (a + EPS)) (J.map List.ofFn).flatten
    (Or.inr (by rw [List.length_map, h2, hfl, g1, hJ])) (by simpa using hc0) (Real.sqrt (0 + EPS)) 0 0
  obtain ⟨es, e1, e2, e3⟩ := bin_spec (fun a (x : ℝ) => a * x)
    (cs.map fun a => Real.sqrt (a + EPS)) (flat e)
    (Or.inr (by rw [List.length_map, h2])) (by simpa using hc0) (Real.sqrt (0 + EPS)) 0 0
  rw [List.length_map, h2, hfl] at j2 j3
  rw [List.length_map, h2] at e2 e3
  rw [hfl] at e2
  obtain ⟨u1, u2⟩ := unflat_spec es e.length hd e2
  have hjd : js.length / d = e.length := by rw [j2]; exact Nat.mul_div_cancel _ hd
  refine ⟨(List.range (js.length / d)).map fun b i => js.getD (b * d + i) 0, unflat d es,
    by simp [weightedJacErr, h1, j1, e1], by simp [hjd], u1, ?_⟩
  intro b hb c
  apply Finset.sum_congr rfl
  intro i _
  have hi : b * d + i < e.length * d := by
    calc b * d + i < b * d + d := by omega
      _ = (b + 1) * d := by ring
      _ ≤ e.length * d := Nat.mul_le_mul_right _ hb
  rw [u2 b hb i]
  have hJ' : ((List.range (js.length / d)).map fun b (i : Fin d) => js.getD (b * d + i) 0).getD b 0 i c =
      js.getD (b * d + i) 0 c := by
    simp [List.getD_eq_getElem?_getD, hjd, hb]
  have hsq : (cs.map fun a => Real.sqrt (a + EPS)).getD (b * d + i) (Real.sqrt (0 + EPS)) =
      Real.sqrt (L.lin (e.getD b 0 i ^ 2) r + EPS) := by
    have hic : b * d + i < cs.length := by rw [h2, hfl]; exact hi
    have hif : b * d + i < (flat e).length := by rw [hfl]; exact hi
    have h4 := h3 _ hif
    have h5 : ((flat e).map (· ^ 2)).getD (b * d + i) 0 = e.getD b 0 i ^ 2 := by
      have := f2 b hb i 0
      simp only [List.getD_eq_getElem?_getD, List.getElem?_map] at this ⊢
      unfold flat at hif ⊢
      rw [List.getElem?_eq_getElem hif] at this ⊢
      simp only [Option.getD_some, Option.map_some] at this ⊢
      rw [this, List.getElem?_eq_getElem hb]
      rfl
    rw [h5] at h4
    simp only [List.length_singleton, if_true, List.getD_cons_zero] at h4
    simp only [List.getD_eq_getElem?_getD, List.getElem?_map, List.getElem?_eq_getElem hic,
      Option.map_some, Option.getD_some] at h4 ⊢
    rw [h4]
  have hej : e.getD b 0 = e[b] := by simp [List.getD_eq_getElem?_getD, List.getElem?_eq_getElem hb]
  have hbJ : b < J.length := by rw [hJ]; exact hb
  have hJj : J.getD b 0 = J[b] := by simp [List.getD_eq_getElem?_getD, List.getElem?_eq_getElem hbJ]
  have hgJ := g2 b hbJ i 0
  have hge : (flat e).getD (b * d + i) 0 = e[b] i := f2 b hb i 0
  have hJ1 : (if (J.map List.ofFn).flatten.length = 1 then (J.map List.ofFn).flatten.getD 0 0
      else (J.map List.ofFn).flatten.getD (b * d + i) 0) = J[b] i := by
    split
    next h =>
      have : b * d + i = 0 := by rw [g1, hJ] at h; omega
      rw [← hgJ, this]
    next => exact hgJ
  have he1 : (if (flat e).length = 1 then (flat e).getD 0 0 else (flat e).getD (b * d + i) 0) = e[b] i := by
    split
    next h =>
      have : b * d + i = 0 := by rw [hfl] at h; omega
      rw [← hge, this]
    next => exact hge
  erw [hJ']
  rw [j3 _ hi, e3 _ (by rw [hfl]; exact hi), hsq, hJ1, he1, hej, hJj]
  have h7 := Real.mul_self_sqrt (show 0 ≤ L.lin (e[b] i ^ 2) r + EPS by
    have := EPS_pos; have := hL _ (sq_nonneg (e[b] i)); linarith)
  calc _ = (Real.sqrt (L.lin (e[b] i ^ 2) r + EPS) * Real.sqrt (L.lin (e[b] i ^ 2) r + EPS)) *
        (J[b] i c * e[b] i) := by ring
    _ = _ := by rw [h7]

/-- C40, gradient: let `E t` be the weighted error along any curve (for instance along one coordinate
of an optimization variable), with derivative column `J · c` at `0`. Then the reported squared error of the
robust cost, halved, has derivative `G` at `0`, and the product of the reported Jacobian and error is
`G` up to the mismatch `tol` between `linearize` and the derivative of the loss, and `1e-20`. -/
theorem robust_gradient (L : Loss) (hd : 0 < d) (r tol : ℝ) (E : ℝ → Fin d → ℝ)
    (J : Fin d → Fin k → ℝ) (c : Fin k) (hE : ∀ i, HasDerivAt (fun t => E t i) (J i c) 0)
    (hL : ∀ x, 0 ≤ x → 0 ≤ L.eval x r ∧ 0 ≤ L.lin x r)
    (hD : ∃ D, HasDerivAt (fun x => L.eval x r) D (sqn (E 0)) ∧ |L.lin (sqn (E 0)) r - D| ≤ tol) :
    ∃ (h : ℝ → Fin d → ℝ) (G : ℝ) (J' : Fin d → Fin k → ℝ) (e' : Fin d → ℝ),
      (∀ t, weightedError L false [E t] [r] = some [h t]) ∧
      HasDerivAt (fun t => sqn (h t) / 2) G 0 ∧
      weightedJacErr L false [J] [E 0] [r] = some ([J'], [e']) ∧
      |∑ i, J' i c * e' i - G| ≤ (tol + EPS) * |∑ i, J i c * E 0 i| := by
  have hs : ∀ t, 0 ≤ sqn (E t) := fun t => Finset.sum_nonneg fun i _ => sq_nonneg _
  obtain ⟨D, hD1, hD2⟩ := hD
  refine ⟨fun t _ => 1 * Real.sqrt (L.eval (sqn (E t)) r / d + EPS), D * ∑ i, J i c * E 0 i,
    fun i c => Real.sqrt (L.lin (sqn (E 0)) r + EPS) * J i c,
    fun i => Real.sqrt (L.lin (sqn (E 0)) r + EPS) * E 0 i, ?_, ?_, ?_, ?_⟩
  · intro t; simp [weightedError, bin]
  · have hsum : HasDerivAt (fun t => sqn (E t)) (∑ i, 2 * E 0 i * J i c) 0 := by
      unfold sqn
      apply HasDerivAt.fun_sum
      intro i _
      have := (hE i).fun_pow 2
      simpa using this
    have h1 := HasDerivAt.comp (0 : ℝ) (h₂ := fun x => L.eval x r) hD1 hsum
    have h2 := ((h1.add_const (d * EPS)).div_const 2)
    have h3 : (D * ∑ i, 2 * E 0 i * J i c) / 2 = D * ∑ i, J i c * E 0 i := by
      have : ∑ i, 2 * E 0 i * J i c = 2 * ∑ i, J i c * E 0 i := by
        rw [Finset.mul_sum]
        apply Finset.sum_congr rfl; intro i _; ring
      rw [this]; ring
    rw [h3] at h2
    refine h2.congr_of_eventuallyEq (Filter.Eventually.of_forall fun t => ?_)
    have hd' : (0:ℝ) < d := by exact_mod_cast hd
    have := (hL _ (hs t)).1
    have := EPS_pos
    show sqn _ / 2 = (L.eval (sqn (E t)) r + d * EPS) / 2
    unfold sqn
    congr 1
    rw [Finset.sum_const, Finset.card_univ, Fintype.card_fin, one_mul]
    erw [Real.sq_sqrt (by positivity)]
    simp only [nsmul_eq_mul]
    field_simp
  · simp [weightedJacErr, bin]
  · have h7 := Real.mul_self_sqrt (show 0 ≤ L.lin (sqn (E 0)) r + EPS by
      have := EPS_pos; have := (hL _ (hs 0)).2; linarith)
    have : ∑ i, Real.sqrt (L.lin (sqn (E 0)) r + EPS) * J i c * (Real.sqrt (L.lin (sqn (E 0)) r + EPS) * E 0 i)
        = (L.lin (sqn (E 0)) r + EPS) * ∑ i, J i c * E 0 i := by
      rw [Finset.mul_sum]
      apply Finset.sum_congr rfl
      intro i _
      generalize Real.sqrt _ = q at *
      rw [← h7]; ring
    rw [this, ← sub_mul, abs_mul]
    apply mul_le_mul_of_nonneg_right _ (abs_nonneg _)
    calc |L.lin (sqn (E 0)) r + EPS - D| = |(L.lin (sqn (E 0)) r - D) + EPS| := by congr 1; ring
      _ ≤ |L.lin (sqn (E 0)) r - D| + |EPS| := abs_add_le _ _
      _ ≤ tol + EPS := by rw [abs_of_pos EPS_pos]; linarith

/-- The hypotheses of `robust_gradient` hold for `WelschLoss`, whatever the error. -/
example (r : ℝ) (hr : 0 < r) (E : ℝ → Fin d → ℝ) :
    (∀ x, 0 ≤ x → 0 ≤ Welsch.eval x r ∧ 0 ≤ Welsch.lin x r) ∧
    ∃ D, HasDerivAt (fun x => Welsch.eval x r) D (sqn (E 0)) ∧
      |Welsch.lin (sqn (E 0)) r - D| ≤ lossEps / r := by
  obtain ⟨_, h2, _, _, h5⟩ := welsch_valid r hr
  have hs : 0 ≤ sqn (E 0) := Finset.sum_nonneg fun i _ => sq_nonneg _
  exact ⟨fun x hx => ⟨(h2 x hx).1, (h5 x hx).1⟩, (h5 _ hs).2.2⟩

/-- The hypotheses of `robust_gradient` hold for `HuberLoss` off the kink. -/
example (r : ℝ) (hr : 0 < r) (E : ℝ → Fin d → ℝ) (hk : sqn (E 0) ≠ r) :
    ∃ D, HasDerivAt (fun x => Huber.eval x r) D (sqn (E 0)) ∧
      |Huber.lin (sqn (E 0)) r - D| ≤ Real.sqrt lossEps + lossEps / r ^ 2 := by
  have hs : 0 ≤ sqn (E 0) := Finset.sum_nonneg fun i _ => sq_nonneg _
  exact ((huber_valid r hr).2.2.2.2.2 _ hs hk).2

/-- A batch of two errors of dimension two, and the radii of `flatten_batched_radius_raises`. -/
example : (1 < 2) ∧ 1 < [![(1 : ℝ), 2], ![3, 4]].length ∧ [(1 : ℝ), 1].length = [![(1 : ℝ), 2], ![3, 4]].length := by
  decide

end Verif.Robust
