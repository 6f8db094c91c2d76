import Verif.Steps.Lemmas
import Mathlib.Tactic.NormNum
/-!
# Properties of damping, Levenberg–Marquardt and trust region steps (C33–C35, C37)
-/
namespace Verif.Steps
set_option linter.unusedSectionVars false
open Matrix Verif.Nlopt
variable {K : Type} [Field K] [LinearOrder K] [IsStrictOrderedRing K] {p d : Nat}

/-! ### C37: damping -/

/-- C37: what `_apply_damping` adds: `λ` (or `λ · diagonal + eps` when ellipsoidal) on the diagonal and
nothing elsewhere. -/
theorem damping_entries (m : Matrix (Fin d) (Fin d) K) (lam eps : K) (i j : Fin d) :
    applyDamping m lam false eps i j = (if i = j then m i j + lam else m i j) ∧
    applyDamping m lam true eps i j = (if i = j then m i j + (lam * m i j + eps) else m i j) := by
  constructor <;> by_cases h : i = j
  · subst h; simp [applyDamping]
  · simp [applyDamping, h]
  · subst h; simp [applyDamping]
  · simp [applyDamping, h]

/-- C37: the dense solver, the CUDA sparse solver and BaSpaCho solve the same damped matrix. -/
theorem damping_agrees (m : Matrix (Fin d) (Fin d) K) (lam eps : K) (ell : Bool) :
    dampCuda m (alphaBeta lam eps ell) = applyDamping m lam ell eps ∧
    dampBaspacho m (alphaBeta lam eps ell) = applyDamping m lam ell eps := by
  constructor <;> ext i j
  · by_cases h : i = j
    · subst h; cases ell <;> simp [dampCuda, alphaBeta, applyDamping]
    · cases ell <;> simp [dampCuda, applyDamping, h, Ne.symm h]
  · by_cases h : i = j
    · subst h; cases ell <;> simp [dampBaspacho, alphaBeta, applyDamping]
      ring
    · cases ell <;> simp [dampBaspacho, applyDamping, h]

/-- C37: dense and sparse solvers give each batch element the same damping, whether `damping` is a float,
a tensor with one entry or a tensor with one entry per batch element. -/
theorem damping_batch_agrees (n : Nat) (a : DampArg K) : denseDamping n a = sparseDamping n a := by
  cases a with
  | scalar v => rfl
  | vec l =>
    match l with
    | [] => simp [denseDamping, sparseDamping]
    | [v] => simp [denseDamping, sparseDamping]
    | v :: w :: l => simp [denseDamping, sparseDamping]

/-- C37: with positive damping (and, when ellipsoidal, positive `eps`) the damped normal matrix is positive
definite, whatever the Jacobian. -/
theorem damping_posDef (L : Lin K p d) (lam eps : K) (ell : Bool) (hlam : 0 < lam) (heps : ell = true → 0 < eps)
    (v : Fin d → K) (hv : v ≠ 0) : 0 < v ⬝ᵥ (applyDamping L.AtA lam ell eps *ᵥ v) := by
  rw [dot_damped]
  have h1 := sq_nonneg' (L.A *ᵥ v)
  have h2 : 0 < ∑ j, (if ell then lam * L.AtA j j + eps else lam) * v j ^ 2 := by
    apply weighted_sum_pos _ hv
    intro j
    cases ell
    · simpa using hlam
    · simp only [if_true]
      exact add_pos_of_nonneg_of_pos (mul_nonneg hlam.le (AtA_diag_nonneg L j)) (heps rfl)
  linarith

/-- C37: so the damped system has at most one solution. -/
theorem damping_unique_solution (L : Lin K p d) (lam eps : K) (ell : Bool) (hlam : 0 < lam)
    (heps : ell = true → 0 < eps) (u v : Fin d → K)
    (h : applyDamping L.AtA lam ell eps *ᵥ u = applyDamping L.AtA lam ell eps *ᵥ v) : u = v := by
  by_contra hne
  have hpos := damping_posDef L lam eps ell hlam heps (u - v) (sub_ne_zero.2 hne)
  rw [mulVec_sub, h, sub_self, dotProduct_zero] at hpos
  exact lt_irrefl _ hpos

/-- Without `eps`, ellipsoidal damping does not make a singular system regular: a variable that no cost
depends on gives a zero row. -/
theorem ellipsoidal_needs_eps : applyDamping (Lin.AtA (⟨!![0], ![0]⟩ : Lin ℚ 1 1)) 5 true 0 = 0 := by
  decide +kernel

/-- C37, CHOLMOD: the damping asked for is used, unless it is 0: then the solver's own damping is. -/
theorem cholmod_damping (own v : K) :
    cholmodDamping own none = own ∧ (v ≠ 0 → cholmodDamping own (some v) = v) ∧
    cholmodDamping own (some 0) = own := by
  refine ⟨rfl, fun h => by simp [cholmodDamping, h], by simp [cholmodDamping]⟩

/-- So `solve(damping=0.0)` on a solver built with `damping=1` is damped by 1. -/
theorem cholmod_zero_damping_ignored : cholmodDamping (1 : ℚ) (some 0) = 1 := by decide

/-! ### C33: range of the damping of adaptive LM -/

/-- Damping after a history of steps of one batch element, with arbitrary linearizations, steps and errors. -/
def lmHistory (o : LMOpts K) (lam : K) : List (Lin K p d × (Fin d → K) × Fl K × Fl K) → K
  | [] => lam
  | (L, delta, err, prev) :: t => lmHistory o (lmCheck o L lam delta err prev).1 t

theorem clamp_range {lo hi x : K} (h : lo ≤ hi) : lo ≤ clamp lo hi x ∧ clamp lo hi x ≤ hi := by
  unfold clamp
  exact ⟨le_min (le_max_right _ _) h, min_le_right _ _⟩

theorem minDamping_le_max : (minDamping : K) ≤ maxDamping := by
  unfold minDamping maxDamping
  norm_num

theorem lmCheck_range (o : LMOpts K) (L : Lin K p d) (lam : K) (delta : Fin d → K) (err prev : Fl K) :
    minDamping ≤ (lmCheck o L lam delta err prev).1 ∧ (lmCheck o L lam delta err prev).1 ≤ maxDamping :=
  clamp_range minDamping_le_max

/-- C33: after any non-empty history the damping lies in `[1e-7, 1e7]`, whatever it was at the start and
whatever the options, steps and errors (even `nan`) were. -/
theorem lm_damping_range (o : LMOpts K) (lam : K) (h : List (Lin K p d × (Fin d → K) × Fl K × Fl K)) (hne : h ≠ []) :
    1 / 10000000 ≤ lmHistory o lam h ∧ lmHistory o lam h ≤ 10000000 := by
  have key : ∀ (h : List (Lin K p d × (Fin d → K) × Fl K × Fl K)) (lam : K), minDamping ≤ lam ∧ lam ≤ maxDamping →
      minDamping ≤ lmHistory o lam h ∧ lmHistory o lam h ≤ maxDamping := by
    intro h
    induction h with
    | nil => intro lam hl; exact hl
    | cons e t ih =>
      intro lam _
      obtain ⟨L, delta, err, prev⟩ := e
      exact ih _ (lmCheck_range o L lam delta err prev)
  cases h with
  | nil => exact absurd rfl hne
  | cons e t =>
    obtain ⟨L, delta, err, prev⟩ := e
    exact key t _ (lmCheck_range o L lam delta err prev)

/-- C33: for a damping in range and ratios at least 1, a rejected step never decreases the damping (it is
multiplied by the up ratio, up to the maximum), an accepted one never increases it (it is divided by the
down ratio, down to the minimum). -/
theorem lm_damping_direction (o : LMOpts K) (hup : 1 ≤ o.up) (hdown : 1 ≤ o.down) (L : Lin K p d) (lam : K)
    (h1 : 1 / 10000000 ≤ lam) (h2 : lam ≤ 10000000) (delta : Fin d → K) (err prev : Fl K) :
    ((lmCheck o L lam delta err prev).2 = true → lam ≤ (lmCheck o L lam delta err prev).1 ∧
      (lmCheck o L lam delta err prev).1 = min (lam * o.up) 10000000) ∧
    ((lmCheck o L lam delta err prev).2 = false → (lmCheck o L lam delta err prev).1 ≤ lam ∧
      (lmCheck o L lam delta err prev).1 = max (lam / o.down) (1 / 10000000)) := by
  have hl : 0 < lam := lt_of_lt_of_le (by norm_num) h1
  constructor
  · intro hr
    have e : (lmCheck o L lam delta err prev).1 = clamp minDamping maxDamping (lam * o.up) := by
      unfold lmCheck at hr ⊢
      simp only at hr ⊢
      rw [if_pos hr]
    have h3 : lam ≤ lam * o.up := le_mul_of_one_le_right hl.le hup
    rw [e]
    unfold clamp minDamping maxDamping
    rw [max_eq_left (le_trans h1 h3)]
    exact ⟨le_min h3 h2, rfl⟩
  · intro hr
    have e : (lmCheck o L lam delta err prev).1 = clamp minDamping maxDamping (lam / o.down) := by
      unfold lmCheck at hr ⊢
      simp only at hr ⊢
      rw [if_neg (by rw [hr]; simp)]
    have h3 : lam / o.down ≤ lam := div_le_self hl.le hdown
    rw [e]
    unfold clamp minDamping maxDamping
    rw [min_eq_left (max_le (le_trans h3 h2) (by norm_num))]
    exact ⟨max_le h3 h1, rfl⟩

/-- The initial damping is not clamped: with `damping=0`, the first accepted step increases it. -/
theorem lm_initial_damping_unclamped : (lmCheck (LMOpts.default : LMOpts ℚ)
    (⟨!![1], ![1]⟩ : Lin ℚ 1 1) 0 ![1] (.fin 0) (.fin (1/2))) = (1/10000000, false) := by
  decide +kernel

/-- Non-vacuity of `lm_damping_direction`: an accepted and a rejected step of the same problem. -/
example : lmCheck (LMOpts.default : LMOpts ℚ) (⟨!![1], ![1]⟩ : Lin ℚ 1 1) 9 ![1/10] (.fin (81/200)) (.fin (1/2)) =
      (1, false) ∧
    lmCheck (LMOpts.default : LMOpts ℚ) (⟨!![1], ![1]⟩ : Lin ℚ 1 1) 9 ![1/10] (.fin 1) (.fin (1/2)) = (99, true) := by
  constructor <;> decide +kernel

/-! ### C34: an accepted LM step does not increase the error -/

/-- The predicted reduction of an exact damped step, scaled by a positive step size, is not negative, and
positive if the step is not zero. -/
theorem lmDen_nonneg (o : LMOpts K) (L : Lin K p d) (lam : K) (hlam : 0 < lam) (heps : 0 ≤ o.eps)
    (delta : Fin d → K) (hsolve : applyDamping L.AtA lam o.ellipsoidal o.eps *ᵥ delta = L.Atb) (s : K) (hs : 0 < s) :
    0 ≤ lmDen o L lam (s • delta) ∧ ((o.ellipsoidal = true → 0 < o.eps) → delta ≠ 0 → 0 < lmDen o L lam (s • delta)) := by
  have hw : ∀ j, 0 ≤ (if o.ellipsoidal then lam * L.AtA j j else lam) := by
    intro j; split
    · exact mul_nonneg hlam.le (AtA_diag_nonneg L j)
    · exact hlam.le
  have e : lmDen o L lam (s • delta) = (s ^ 2 * (∑ j, (if o.ellipsoidal then lam * L.AtA j j else lam) * delta j ^ 2) +
      s * (delta ⬝ᵥ L.Atb)) / 2 := by
    unfold lmDen
    congr 1
    rw [dotProduct, Finset.mul_sum, Finset.mul_sum, ← Finset.sum_add_distrib]
    exact Finset.sum_congr rfl fun j _ => by simp only [Pi.smul_apply, smul_eq_mul]; ring
  have hq : delta ⬝ᵥ L.Atb = sq (L.A *ᵥ delta) +
      ∑ j, (if o.ellipsoidal then lam * L.AtA j j + o.eps else lam) * delta j ^ 2 := by
    rw [← hsolve, dot_damped]
  have h1 := weighted_sum_nonneg (v := delta) hw
  have hw2 : ∀ j, 0 ≤ (if o.ellipsoidal then lam * L.AtA j j + o.eps else lam) := by
    intro j; split
    · exact add_nonneg (mul_nonneg hlam.le (AtA_diag_nonneg L j)) heps
    · exact hlam.le
  have h2 := weighted_sum_nonneg (v := delta) hw2
  have h3 := sq_nonneg' (L.A *ᵥ delta)
  constructor
  · rw [e]
    have : 0 ≤ s * (delta ⬝ᵥ L.Atb) := mul_nonneg hs.le (by rw [hq]; linarith)
    have : 0 ≤ s ^ 2 * (∑ j, (if o.ellipsoidal then lam * L.AtA j j else lam) * delta j ^ 2) :=
      mul_nonneg (sq_nonneg _) h1
    linarith
  · intro he hd
    rw [e]
    have : 0 < delta ⬝ᵥ L.Atb := by
      rw [← hsolve]; exact damping_posDef L lam o.eps o.ellipsoidal hlam he delta hd
    have : 0 < s * (delta ⬝ᵥ L.Atb) := mul_pos hs this
    have : 0 ≤ s ^ 2 * (∑ j, (if o.ellipsoidal then lam * L.AtA j j else lam) * delta j ^ 2) :=
      mul_nonneg (sq_nonneg _) h1
    linarith

/-- Comparing a gain ratio with a nonnegative threshold: it is not positive if the error grew. -/
theorem rho_of_increase {prev err : Fl K} {den : K} (hden : 0 ≤ den) (h : prev.lt err = true) :
    ∃ r, (prev.sub err).div (.fin den) = r ∧ (r = .inf true ∨ ∃ q, r = .fin q ∧ q < 0) := by
  refine ⟨_, rfl, ?_⟩
  rcases prev with _ | s | q <;> rcases err with _ | t | e <;> simp only [Fl.lt] at h
  · simp at h
  · simp at h
  · simp at h
  · simp at h
  · cases s <;> cases t <;> simp at h
    left; simp [Fl.sub, Fl.div, hden]
  · cases s <;> simp at h
    left; simp [Fl.sub, Fl.div, hden]
  · simp at h
  · cases t <;> simp at h
    left; simp [Fl.sub, Fl.div, hden]
  · simp only [decide_eq_true_eq] at h
    simp only [Fl.sub, Fl.div]
    rcases eq_or_lt_of_le hden with e0 | hpos
    · left
      have h1 : q - e < 0 := by linarith
      rw [if_pos e0.symm, if_neg h1.ne]
      simp [h1]
    · right
      rw [if_neg hpos.ne']
      exact ⟨_, rfl, div_neg_of_neg_of_pos (by linarith) hpos⟩

/-- C34: let `delta` solve the damped system exactly with positive damping, and let the step be scaled by a
positive step size.  If adaptive LM with acceptance threshold at least 0 accepts the step, the error of the
element does not increase (errors may be infinite, but not `nan`); if the step is not zero and the errors
are finite, it strictly decreases. -/
theorem lm_accept_decreases (o : LMOpts K) (hacc : 0 ≤ o.accept) (L : Lin K p d) (lam : K) (hlam : 0 < lam)
    (heps : 0 ≤ o.eps) (delta : Fin d → K)
    (hsolve : applyDamping L.AtA lam o.ellipsoidal o.eps *ᵥ delta = L.Atb) (s : K) (hs : 0 < s) (err prev : Fl K)
    (h : (lmCheck o L lam (s • delta) err prev).2 = false) :
    prev.lt err = false ∧
    ∀ e q, err = .fin e → prev = .fin q → delta ≠ 0 → (o.ellipsoidal = true → 0 < o.eps) → e < q := by
  obtain ⟨hden, hpos⟩ := lmDen_nonneg o L lam hlam heps delta hsolve s hs
  have h' : Fl.le ((prev.sub err).div (.fin (lmDen o L lam (s • delta)))) (.fin o.accept) = false := h
  constructor
  · cases hlt : prev.lt err with
    | false => rfl
    | true =>
      obtain ⟨r, hr, hc⟩ := rho_of_increase hden hlt
      rw [hr] at h'
      rcases hc with rfl | ⟨q, rfl, hq⟩
      · simp [Fl.le, Fl.lt] at h'
      · have : q < o.accept := lt_of_lt_of_le hq hacc
        simp [Fl.le, Fl.lt, this] at h'
  · intro e q he hq hd hee
    subst he; subst hq
    have hp := hpos hee hd
    simp only [Fl.le, Fl.sub, Fl.div, if_neg hp.ne', Fl.lt, Bool.or_eq_false_iff, decide_eq_false_iff_not, not_lt] at h'
    obtain ⟨h1, h2⟩ := h'
    by_contra hc
    push Not at hc
    have h3 : (q - e) / lmDen o L lam (s • delta) ≤ 0 := div_nonpos_of_nonpos_of_nonneg (by linarith) hp.le
    have h4 : (q - e) / lmDen o L lam (s • delta) = o.accept := le_antisymm (le_trans h3 hacc) h1
    rw [h4] at h2
    simp at h2

/-- C34 fails for `nan`: a step that leads to a `nan` error is accepted, whatever the options, and the
damping is decreased. -/
theorem lm_accepts_nan (o : LMOpts K) (L : Lin K p d) (lam : K) (delta : Fin d → K) (prev : Fl K) :
    (lmCheck o L lam delta .nan prev).2 = false ∧
    (lmCheck o L lam delta .nan prev).1 = clamp minDamping maxDamping (lam / o.down) := by
  have : prev.sub .nan = .nan := by cases prev <;> rfl
  simp [lmCheck, this, Fl.div, Fl.le, Fl.lt]

/-- Non-vacuity of `lm_accept_decreases`: one step of `½ (x - 1)²` from 0 with damping 1. -/
example : applyDamping (Lin.AtA (⟨!![1], ![1]⟩ : Lin ℚ 1 1)) 1 false 0 *ᵥ ![1/2] = Lin.Atb ⟨!![1], ![1]⟩ ∧
    (lmCheck (LMOpts.default : LMOpts ℚ) ⟨!![1], ![1]⟩ 1 ((1 : ℚ) • ![1/2]) (.fin (1/8)) (.fin (1/2))).2 = false := by
  constructor
  · ext i; fin_cases i
    simp [applyDamping, Lin.AtA, Lin.Atb, Matrix.mul_apply, mulVec, dotProduct]
    norm_num
  · decide +kernel

/-! ### C35: trust region -/

/-- Radius after a history of steps; `none` is the ValueError. -/
def trHistory (o : TROpts K) (r : K) : List (Lin K p d × (Fin d → K) × Fl K × Fl K) → Option K
  | [] => some r
  | (L, delta, err, prev) :: t => match trCheck o L r delta err prev with
    | none => none
    | some (r', _) => trHistory o r' t

/-- C35: a step raises ValueError exactly if the parameters are not sensible. -/
theorem tr_params_checked (o : TROpts K) (L : Lin K p d) (r : K) (delta : Fin d → K) (err prev : Fl K) :
    trCheck o L r delta err prev = none ↔
      ¬ (0 < o.shrinkRatio ∧ o.shrinkRatio ≤ 1 ∧ 1 ≤ o.expandRatio ∧ o.accept < o.shrinkThr ∧ o.shrinkThr < o.expandThr) := by
  unfold trCheck
  have : o.good = true ↔
      (0 < o.shrinkRatio ∧ o.shrinkRatio ≤ 1 ∧ 1 ≤ o.expandRatio ∧ o.accept < o.shrinkThr ∧ o.shrinkThr < o.expandThr) := by
    simp only [TROpts.good, Bool.and_eq_true, decide_eq_true_eq]; tauto
  rw [← this]
  by_cases h : o.good = true
  · simp [h]
  · simp [h]

/-- C35: one step with a radius in range: the new radius is in range; if the gain ratio is below the shrink
threshold, the radius is multiplied by the shrink ratio (down to the minimum), if it is above the expand
threshold, by the expand ratio (up to the maximum), and otherwise (also if it is `nan`) it stays. -/
theorem tr_radius_step (o : TROpts K) (hmm : o.minTR ≤ o.maxTR) (hmin : 0 ≤ o.minTR) (L : Lin K p d) (r : K)
    (h1 : o.minTR ≤ r) (h2 : r ≤ o.maxTR) (delta : Fin d → K) (err prev : Fl K) (r' : K) (rej : Bool)
    (h : trCheck o L r delta err prev = some (r', rej)) :
    o.minTR ≤ r' ∧ r' ≤ o.maxTR ∧ rej = (trRho L delta err prev).lt (.fin o.accept) ∧
    ((trRho L delta err prev).lt (.fin o.shrinkThr) = true → r' = max (r * o.shrinkRatio) o.minTR ∧ r' ≤ r) ∧
    (Fl.lt (.fin o.expandThr) (trRho L delta err prev) = true → r' = min (r * o.expandRatio) o.maxTR ∧ r ≤ r') ∧
    ((trRho L delta err prev).lt (.fin o.shrinkThr) = false → Fl.lt (.fin o.expandThr) (trRho L delta err prev) = false →
      r' = r) := by
  have hg : 0 < o.shrinkRatio ∧ o.shrinkRatio ≤ 1 ∧ 1 ≤ o.expandRatio ∧ o.accept < o.shrinkThr ∧ o.shrinkThr < o.expandThr := by
    by_contra hc
    rw [← tr_params_checked o L r delta err prev, h] at hc
    simp at hc
  obtain ⟨g1, g2, g3, g4, g5⟩ := hg
  have hr0 : 0 ≤ r := le_trans hmin h1
  unfold trCheck at h
  split at h
  · simp only [Option.some.injEq, Prod.mk.injEq] at h
    obtain ⟨e1, e2⟩ := h
    have hrange := clamp_range (x := if Fl.lt (.fin o.expandThr) (trRho L delta err prev) = true then
        (if (trRho L delta err prev).lt (.fin o.shrinkThr) = true then r * o.shrinkRatio else r) * o.expandRatio
      else if (trRho L delta err prev).lt (.fin o.shrinkThr) = true then r * o.shrinkRatio else r) hmm
    rw [e1] at hrange
    refine ⟨hrange.1, hrange.2, e2.symm, ?_, ?_, ?_⟩
    · intro hs
      have hx : Fl.lt (.fin o.expandThr) (trRho L delta err prev) = false := by
        cases hrho : trRho L delta err prev with
        | nan => rfl
        | inf s => rw [hrho] at hs; cases s <;> simp [Fl.lt] at hs ⊢
        | fin q =>
          rw [hrho] at hs
          simp only [Fl.lt, decide_eq_true_eq, decide_eq_false_iff_not, not_lt] at hs ⊢
          linarith
      rw [hx, hs] at e1
      simp only [Bool.false_eq_true, if_false, if_true] at e1
      have hle : r * o.shrinkRatio ≤ r := mul_le_of_le_one_right hr0 g2
      unfold clamp at e1
      rw [min_eq_left (max_le (le_trans hle h2) hmm)] at e1
      rw [← e1]
      exact ⟨rfl, max_le hle h1⟩
    · intro hx
      have hs : (trRho L delta err prev).lt (.fin o.shrinkThr) = false := by
        cases hrho : trRho L delta err prev with
        | nan => rfl
        | inf s => rw [hrho] at hx; cases s <;> simp [Fl.lt] at hx ⊢
        | fin q =>
          rw [hrho] at hx
          simp only [Fl.lt, decide_eq_true_eq, decide_eq_false_iff_not, not_lt] at hx ⊢
          linarith
      rw [hx, hs] at e1
      simp only [Bool.false_eq_true, if_false, if_true] at e1
      have hle : r ≤ r * o.expandRatio := le_mul_of_one_le_right hr0 g3
      unfold clamp at e1
      rw [max_eq_left (le_trans h1 hle)] at e1
      rw [← e1]
      exact ⟨rfl, le_min hle h2⟩
    · intro hs hx
      rw [hx, hs] at e1
      simp only [Bool.false_eq_true, if_false] at e1
      unfold clamp at e1
      rw [max_eq_left h1, min_eq_left h2] at e1
      exact e1.symm
  · simp at h

/-- C35: after any non-empty history that does not raise, the radius lies in `[min_trust_region,
max_trust_region]`, whatever `trust_region_init` was. -/
theorem tr_radius_range (o : TROpts K) (hmm : o.minTR ≤ o.maxTR) (r : K)
    (h : List (Lin K p d × (Fin d → K) × Fl K × Fl K)) (hne : h ≠ []) (r' : K) (hr : trHistory o r h = some r') :
    o.minTR ≤ r' ∧ r' ≤ o.maxTR := by
  have one : ∀ (L : Lin K p d) (r : K) (delta : Fin d → K) (err prev : Fl K) (x : K × Bool),
      trCheck o L r delta err prev = some x → o.minTR ≤ x.1 ∧ x.1 ≤ o.maxTR := by
    intro L r delta err prev x hx
    unfold trCheck at hx
    split at hx
    · simp only [Option.some.injEq] at hx
      rw [← hx]
      exact clamp_range hmm
    · simp at hx
  have key : ∀ (h : List (Lin K p d × (Fin d → K) × Fl K × Fl K)) (r : K), o.minTR ≤ r ∧ r ≤ o.maxTR →
      trHistory o r h = some r' → o.minTR ≤ r' ∧ r' ≤ o.maxTR := by
    intro h
    induction h with
    | nil =>
      intro r hl e
      simp only [trHistory, Option.some.injEq] at e
      rw [← e]; exact hl
    | cons e t ih =>
      intro r _ he
      obtain ⟨L, delta, err, prev⟩ := e
      simp only [trHistory] at he
      split at he
      · simp at he
      · next hc => exact ih _ (one _ _ _ _ _ _ hc) he
  cases h with
  | nil => exact absurd rfl hne
  | cons e t =>
    obtain ⟨L, delta, err, prev⟩ := e
    simp only [trHistory] at hr
    split at hr
    · simp at hr
    · next hc => exact key t _ (one _ _ _ _ _ _ hc) hr

/-- An accepted trust region step does not increase the error, if the predicted reduction is not negative
and `accept_threshold ≥ 0` (see `dogleg_predicted_reduction` for when that is). -/
theorem tr_accept_decreases (o : TROpts K) (hacc : 0 ≤ o.accept) (L : Lin K p d) (r : K) (delta : Fin d → K)
    (hpred : 0 ≤ predReduction L delta) (err prev : Fl K) (hprev : prev ≠ .inf true) (r' : K)
    (h : trCheck o L r delta err prev = some (r', false)) : prev.lt err = false := by
  unfold trCheck at h
  split at h
  · simp only [Option.some.injEq, Prod.mk.injEq] at h
    have h2 := h.2
    cases hlt : prev.lt err with
    | false => rfl
    | true =>
      unfold trRho at h2
      rcases prev with _ | s | q
      · simp [Fl.lt] at hlt
      · cases s
        · cases err <;> simp [Fl.lt] at hlt
        · exact absurd rfl hprev
      · have hp : (Fl.fin q).sub (predictedError L delta (.fin q)) = .fin (predReduction L delta) := by
          simp only [predictedError, Fl.add, Fl.sub, predReduction]
          congr 1; ring
        rw [hp] at h2
        obtain ⟨ρ, hr, hc⟩ := rho_of_increase hpred hlt
        rw [hr] at h2
        rcases hc with rfl | ⟨q', rfl, hq⟩
        · simp [Fl.lt] at h2
        · simp only [Fl.lt, decide_eq_false_iff_not, not_lt] at h2
          linarith
  · simp at h

end Verif.Steps
