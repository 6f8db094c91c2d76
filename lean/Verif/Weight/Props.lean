import Verif.Weight.Model
import Mathlib.Analysis.Calculus.Deriv.Mul
import Mathlib.Analysis.Calculus.Deriv.Pow
import Mathlib.Tactic
/-!
# Properties of the cost weights (C85)
-/
namespace Verif.Weight

/-! ### Specification -/

/-- The weight of row `r` of the error of batch element `i`. -/
noncomputable def CW.at (c : CW) (i r : Nat) : ℝ :=
  match c with
  | .scale w => w.val (if w.b = 1 then 0 else i) 0
  | .diagonal w => w.val (if w.b = 1 then 0 else i) (if w.d = 1 then 0 else r)

/-- What a constructor can produce: the tensor of a scale has one column. -/
def CW.Built : CW → Prop
  | .scale w => w.d = 1
  | .diagonal _ => True

/-- The weight is made for errors of `B` batch elements and dimension `D`: it has `B` batch elements or one,
and, for a diagonal, `D` columns or one. -/
def CW.Fits (c : CW) (B D : Nat) : Prop :=
  (c.tensor.b = B ∨ c.tensor.b = 1) ∧ (c.tensor.d = D ∨ c.tensor.d = 1)

/-! ### Lemmas -/

theorem bdim_fits {m n : Nat} (h : n = m ∨ n = 1) : bdim m n = some m := by
  unfold bdim; split_ifs with h1 h2 <;> first | rfl | (rcases h with rfl | rfl) <;> simp_all

theorem weightError_eq (c : CW) (e : T2) : c.weightError e = e.mul c.tensor := by cases c <;> rfl

theorem weightJacs_ok {w : T2} : ∀ {Js Js' : List T3}, weightJacs w Js = .ok Js' →
    Js'.length = Js.length ∧ ∀ j (h : j < Js.length) (h' : j < Js'.length), Js[j].mul w = .ok Js'[j]
  | [], Js', h => by simp only [weightJacs, Except.ok.injEq] at h; subst h; exact ⟨rfl, fun j h => by simp at h⟩
  | J :: Js, Js', h => by
    simp only [weightJacs] at h
    cases h1 : J.mul w with
    | error e => rw [h1] at h; simp [bind, Except.bind] at h
    | ok J' =>
      cases h2 : weightJacs w Js with
      | error e => rw [h1, h2] at h; simp [bind, Except.bind] at h
      | ok r =>
        rw [h1, h2] at h
        simp only [bind, Except.bind, Except.ok.injEq] at h
        subst h
        obtain ⟨e1, e2⟩ := weightJacs_ok h2
        refine ⟨by simp [e1], fun j hj hj' => ?_⟩
        cases j with
        | zero => exact h1
        | succ j => exact e2 j (by simpa using hj) (by simpa using hj')

theorem wje_ok {c : CW} {Js Js' : List T3} {e e' : T2} (h : c.weightJacobiansAndError Js e = .ok (Js', e')) :
    e.mul c.tensor = .ok e' ∧ weightJacs c.tensor Js = .ok Js' := by
  have key : ∀ w : T2, (do let e'' ← e.mul w; let r ← weightJacs w Js; (.ok (r, e'') : Except Exc (List T3 × T2)))
      = .ok (Js', e') → e.mul w = .ok e' ∧ weightJacs w Js = .ok Js' := by
    intro w h
    cases h1 : e.mul w with
    | error e => rw [h1] at h; simp [bind, Except.bind] at h
    | ok a =>
      cases h2 : weightJacs w Js with
      | error e => rw [h1, h2] at h; simp [bind, Except.bind] at h
      | ok r =>
        rw [h1, h2] at h
        simp only [bind, Except.bind, Except.ok.injEq, Prod.mk.injEq] at h
        exact ⟨by rw [h.2], by rw [h.1]⟩
  cases c <;> exact key _ h

theorem mul_fits {c : CW} {e : T2} (h : c.Fits e.b e.d) : e.mul c.tensor =
    .ok ⟨e.b, e.d, fun i r => e.val (bidx e.b i) (bidx e.d r) * c.tensor.val (bidx c.tensor.b i) (bidx c.tensor.d r)⟩ := by
  unfold T2.mul; rw [bdim_fits h.1, bdim_fits h.2]

theorem mul3_fits {c : CW} {J : T3} (h : c.Fits J.b J.d) : J.mul c.tensor = .ok ⟨J.b, J.d, J.v, fun i r k =>
    J.val (bidx J.b i) (bidx J.d r) k * c.tensor.val (bidx c.tensor.b i) (bidx c.tensor.d r)⟩ := by
  unfold T3.mul; rw [bdim_fits h.1, bdim_fits h.2]

theorem bidx_lt {n i : Nat} (h : i < n) : bidx n i = i := by unfold bidx; split_ifs <;> omega

theorem tensor_at {c : CW} (hc : c.Built) (i r : Nat) :
    c.tensor.val (bidx c.tensor.b i) (bidx c.tensor.d r) = c.at i r := by
  cases c with
  | scale w =>
    have hd : w.d = 1 := hc
    show w.val (if w.b = 1 then 0 else i) (if w.d = 1 then 0 else r) = w.val (if w.b = 1 then 0 else i) 0
    rw [if_pos hd]
  | diagonal w => rfl

theorem weightJacs_fits {c : CW} {B D : Nat} (h : c.Fits B D) : ∀ Js : List T3, (∀ J ∈ Js, J.b = B ∧ J.d = D) →
    ∃ Js', weightJacs c.tensor Js = .ok Js'
  | [], _ => ⟨[], rfl⟩
  | J :: Js, hJ => by
    obtain ⟨r, hr⟩ := weightJacs_fits h Js fun J' hJ' => hJ J' (by simp [hJ'])
    have hf : c.Fits J.b J.d := by rw [(hJ J (by simp)).1, (hJ J (by simp)).2]; exact h
    unfold weightJacs
    rw [mul3_fits hf, hr]
    exact ⟨_, rfl⟩

/-! ### C85 -/

/-- Both weights multiply row `r` of the error of batch element `i` by the weight for that row and element,
for every error that they are made for; the shape does not change. -/
theorem weight_error_spec (c : CW) (hc : c.Built) (e : T2) (h : c.Fits e.b e.d) :
    ∃ out, c.weightError e = .ok out ∧ out.b = e.b ∧ out.d = e.d ∧
      ∀ i < e.b, ∀ r < e.d, out.val i r = e.val i r * c.at i r := by
  refine ⟨_, (weightError_eq c e).trans (mul_fits h), rfl, rfl, fun i hi r hr => ?_⟩
  simp only [bidx_lt hi, bidx_lt hr, tensor_at hc]

example : (CW.scale ⟨1, 1, fun _ _ => 3⟩).Built ∧ (CW.scale ⟨1, 1, fun _ _ => 3⟩).Fits 5 2 ∧
    (CW.diagonal ⟨5, 2, fun i r => i + r⟩).Fits 5 2 := ⟨rfl, by simp [CW.Fits, CW.tensor], by simp [CW.Fits, CW.tensor]⟩

/-- `weight_jacobians_and_error` returns the same weighted error as `weight_error`, and for every Jacobian a
weighted Jacobian of the same shape. -/
theorem weight_jacobians_error_agree (c : CW) (Js : List T3) (e : T2) (h : c.Fits e.b e.d)
    (hJ : ∀ J ∈ Js, J.b = e.b ∧ J.d = e.d) :
    ∃ Js' e', c.weightJacobiansAndError Js e = .ok (Js', e') ∧ c.weightError e = .ok e' ∧
      Js'.length = Js.length ∧ ∀ j (h1 : j < Js.length) (h2 : j < Js'.length),
        Js'[j].b = Js[j].b ∧ Js'[j].d = Js[j].d ∧ Js'[j].v = Js[j].v := by
  obtain ⟨Js', h1⟩ := weightJacs_fits h Js hJ
  obtain ⟨e', h2⟩ : ∃ e', e.mul c.tensor = .ok e' := ⟨_, mul_fits h⟩
  have key : c.weightJacobiansAndError Js e = .ok (Js', e') := by
    have : c.weightJacobiansAndError Js e =
        (do let e' ← e.mul c.tensor; let r ← weightJacs c.tensor Js; (.ok (r, e') : Except Exc (List T3 × T2))) := by
      cases c <;> rfl
    rw [this, h2, h1]; rfl
  refine ⟨Js', _, key, (weightError_eq c e).trans h2, (weightJacs_ok h1).1, fun j hj hj' => ?_⟩
  have hm := (weightJacs_ok h1).2 j hj hj'
  have hb := hJ Js[j] (List.getElem_mem hj)
  have hf : c.Fits Js[j].b Js[j].d := by rw [hb.1, hb.2]; exact h
  rw [mul3_fits hf] at hm
  have := Except.ok.inj hm
  rw [← this]
  exact ⟨rfl, rfl, rfl⟩

/-- The weighted Jacobians are the Jacobians of the weighted error: if along a curve every entry of the error
`E` has the derivative that column `k` of the `j`-th Jacobian states, then every entry of the weighted error
has the derivative that column `k` of the `j`-th weighted Jacobian states. -/
theorem weighted_jacobian_correct (c : CW) (hc : c.Built) (E : ℝ → T2) (B D : Nat) (hE : ∀ t, (E t).b = B ∧ (E t).d = D)
    (h : c.Fits B D) (Js : List T3) (j : Nat) (hj : j < Js.length) (hs : Js[j].b = B ∧ Js[j].d = D) (k : Nat) (t₀ : ℝ)
    (hd : ∀ i < B, ∀ r < D, HasDerivAt (fun t => (E t).val i r) (Js[j].val i r k) t₀)
    (Js' : List T3) (e' : T2) (hw : c.weightJacobiansAndError Js (E t₀) = .ok (Js', e')) (hj' : j < Js'.length) :
    ∃ out : ℝ → T2, (∀ t, c.weightError (E t) = .ok (out t) ∧ (out t).b = B ∧ (out t).d = D) ∧ e' = out t₀ ∧
      ∀ i < B, ∀ r < D, HasDerivAt (fun t => (out t).val i r) (Js'[j].val i r k) t₀ := by
  obtain ⟨h1, h2⟩ := wje_ok hw
  have hf : ∀ t, c.Fits (E t).b (E t).d := fun t => by rw [(hE t).1, (hE t).2]; exact h
  refine ⟨fun t => ⟨(E t).b, (E t).d, fun i r => (E t).val (bidx (E t).b i) (bidx (E t).d r) *
    c.tensor.val (bidx c.tensor.b i) (bidx c.tensor.d r)⟩, fun t => ⟨(weightError_eq c _).trans (mul_fits (hf t)),
    (hE t).1, (hE t).2⟩, ?_, fun i hi r hr => ?_⟩
  · rw [mul_fits (hf t₀)] at h1
    exact (Except.ok.inj h1).symm
  · have hm := (weightJacs_ok h2).2 j hj hj'
    have hfj : c.Fits Js[j].b Js[j].d := by rw [hs.1, hs.2]; exact h
    rw [mul3_fits hfj] at hm
    rw [← Except.ok.inj hm]
    simp only [tensor_at hc, (hE _).1, (hE _).2, bidx_lt hi, bidx_lt hr, hs.1, hs.2]
    exact (hd i hi r hr).mul_const _

/-- The error `t²` with Jacobian `2 t`, at `t = 3`, weighted by 5. -/
example : ∃ out : ℝ → T2, HasDerivAt (fun t => (out t).val 0 0) (2 * 3 * 5) 3 := by
  obtain ⟨Js', e', h1, h2, h3, h4⟩ := weight_jacobians_error_agree (.scale ⟨1, 1, fun _ _ => 5⟩)
    [⟨1, 1, 1, fun _ _ _ => 2 * 3⟩] ⟨1, 1, fun _ _ => 3 ^ 2⟩ (by simp [CW.Fits, CW.tensor]) (by simp)
  obtain ⟨out, h5, h6, h7⟩ := weighted_jacobian_correct (.scale ⟨1, 1, fun _ _ => 5⟩) rfl
    (fun t => ⟨1, 1, fun _ _ => t ^ 2⟩) 1 1 (fun _ => ⟨rfl, rfl⟩) (by simp [CW.Fits, CW.tensor])
    [⟨1, 1, 1, fun _ _ _ => 2 * 3⟩] 0 (by simp) (by simp) 0 3
    (fun i _ r _ => by simpa using hasDerivAt_pow 2 (3 : ℝ)) Js' e' h1 (by rw [h3]; simp)
  refine ⟨out, ?_⟩
  have hm := (weightJacs_ok (wje_ok h1).2).2 0 (by simp) (by rw [h3]; simp)
  have := h7 0 (by norm_num) 0 (by norm_num)
  refine this.congr_deriv ?_
  have hm' := Except.ok.inj hm
  rw [← hm']
  simp [CW.tensor, bidx]

/-- A weight reports zero for a batch element exactly when all its weights for that element are zero, which is
exactly when every error is weighted to zero there. -/
theorem is_zero_spec (c : CW) (hc : c.Built) (i : Nat) (hi : i < c.tensor.b) :
    (c.isZero i = true ↔ ∀ r < c.tensor.d, c.at i r = 0) ∧
    (c.isZero i = true ↔ ∀ e out, e.b = c.tensor.b → e.d = c.tensor.d → c.weightError e = .ok out →
      ∀ r < e.d, out.val i r = 0) := by
  have hz : c.isZero i = true ↔ ∀ r < c.tensor.d, c.at i r = 0 := by
    cases c with
    | scale w =>
      have hd : w.d = 1 := hc
      have hb : (if w.b = 1 then 0 else i) = i := by
        have : i < w.b := hi
        split_ifs <;> omega
      simp only [CW.isZero, CW.tensor, CW.at, hb, hd, decide_eq_true_eq]
      exact ⟨fun h r _ => h, fun h => h 0 (by norm_num)⟩
    | diagonal w =>
      have hb : (if w.b = 1 then 0 else i) = i := by
        have : i < w.b := hi
        split_ifs <;> omega
      simp only [CW.isZero, CW.tensor, CW.at, hb, decide_eq_true_eq]
      refine forall₂_congr fun r hr => ?_
      have : (if w.d = 1 then 0 else r) = r := by split_ifs <;> omega
      rw [this]
  refine ⟨hz, hz.trans ⟨fun h e out h1 h2 ho r hr => ?_, fun h r hr => ?_⟩⟩
  · obtain ⟨out', h3, _, _, h4⟩ := weight_error_spec c hc e ⟨Or.inl h1.symm, Or.inl h2.symm⟩
    rw [ho] at h3
    cases Except.ok.inj h3
    rw [h4 i (by omega) r hr, h r (by omega), mul_zero]
  · obtain ⟨out', h3, _, _, h4⟩ := weight_error_spec c hc ⟨c.tensor.b, c.tensor.d, fun _ _ => 1⟩ ⟨Or.inl rfl, Or.inl rfl⟩
    have := h ⟨c.tensor.b, c.tensor.d, fun _ _ => 1⟩ out' rfl rfl h3 r hr
    rw [h4 i hi r hr, one_mul] at this
    exact this

example : (CW.diagonal ⟨2, 2, fun i r => if i = 0 then 0 else r⟩).isZero 0 = true ∧
    (CW.diagonal ⟨2, 2, fun i r => if i = 0 then 0 else r⟩).isZero 1 = false := by
  refine ⟨by simp [CW.isZero], ?_⟩
  simp only [CW.isZero, decide_eq_false_iff_not]
  intro h; have := h 1 (by norm_num); norm_num at this

/-- A scale `w` multiplies the squared norm of the error of a batch element by `w²`. -/
theorem scale_sq_norm (w e out : T2) (hw : w.d = 1) (h : (CW.scale w).Fits e.b e.d)
    (ho : (CW.scale w).weightError e = .ok out) (i : Nat) (hi : i < e.b) :
    ∑ r ∈ Finset.range e.d, out.val i r ^ 2 =
      w.val (if w.b = 1 then 0 else i) 0 ^ 2 * ∑ r ∈ Finset.range e.d, e.val i r ^ 2 := by
  obtain ⟨out', h3, _, _, h4⟩ := weight_error_spec (.scale w) hw e h
  rw [ho] at h3; cases Except.ok.inj h3
  rw [Finset.mul_sum]
  refine Finset.sum_congr rfl fun r hr => ?_
  rw [h4 i hi r (Finset.mem_range.1 hr)]
  simp only [CW.at]
  ring

/-- `ScaleCostWeight` accepts a tensor exactly if at most one of its sizes differs from 1; every entry is the
scale of one batch element, also for a row `1 × n`. -/
theorem scale_constructor (shape : List Nat) (data : Nat → ℝ) :
    (((shape.filter (· ≠ 1)).length ≤ 1) → ∃ w, mkScale shape data = .ok (.scale w) ∧ w.b = shape.prod ∧ w.d = 1 ∧
      ∀ i, w.val i 0 = data i) ∧
    (1 < (shape.filter (· ≠ 1)).length → mkScale shape data = .error .value) := by
  unfold mkScale
  constructor
  · intro h; rw [if_pos h]; exact ⟨_, rfl, rfl, rfl, fun _ => rfl⟩
  · intro h; rw [if_neg (by omega)]

example : ∃ w, mkScale [1, 4] (fun i => i) = .ok (.scale w) ∧ w.b = 4 ∧ w.d = 1 ∧ ∀ i, w.val i 0 = i :=
  (scale_constructor [1, 4] _).1 (by decide)
example : mkScale [2, 4] (fun i => i) = .error .value := (scale_constructor [2, 4] _).2 (by decide)

/-- A one-dimensional tensor given to `DiagonalCostWeight` weighs the rows of the error of every batch element
alike; given to `ScaleCostWeight` it holds one scale per batch element. -/
theorem one_dim_tensor (n : Nat) (data : Nat → ℝ) :
    ∃ w w', mkDiagonal [n] data = .ok w ∧ mkScale [n] data = .ok w' ∧
      (∀ i r, r < n → w.at i r = data r) ∧ (∀ i r, i < n → w'.at i r = data i) := by
  refine ⟨_, _, rfl, if_pos (List.length_filter_le _ [n]), fun i r hr => ?_, fun i r hi => ?_⟩
  · simp only [CW.at]
    congr 1
    split_ifs <;> omega
  · simp only [CW.at, List.prod_cons, List.prod_nil, mul_one]
    congr 1
    split_ifs <;> omega

/-- **Defect.** The size of a diagonal is not checked against the dimension of the error: an error of
dimension 1 weighted by a diagonal of `n > 1` entries becomes an error of dimension `n`. -/
theorem diagonal_enlarges_error (w e : T2) (he : e.d = 1) (hn : 1 < w.d) (hb : w.b = e.b) :
    ∃ out, (CW.diagonal w).weightError e = .ok out ∧ out.d = w.d ∧ e.d < out.d := by
  have h1 : bdim e.b w.b = some e.b := by simp [bdim, hb]
  have h2 : bdim e.d w.d = some w.d := by rw [he]; unfold bdim; split_ifs <;> simp_all
  have : (CW.diagonal w).weightError e = .ok ⟨e.b, w.d, fun i r =>
      e.val (bidx e.b i) (bidx e.d r) * w.val (bidx w.b i) (bidx w.d r)⟩ := by
    simp only [CW.weightError, T2.mul, h1, h2]
  exact ⟨_, this, rfl, by simpa [he] using hn⟩

example : ∃ out, (CW.diagonal ⟨1, 3, fun _ r => r⟩).weightError ⟨1, 1, fun _ _ => 2⟩ = .ok out ∧ out.d = 3 ∧ 1 < out.d :=
  diagonal_enlarges_error ⟨1, 3, fun _ r => r⟩ ⟨1, 1, fun _ _ => 2⟩ rfl (by norm_num) rfl

end Verif.Weight
