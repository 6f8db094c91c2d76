import Verif.Lie.BatchGrad
import Verif.Lie.BatchProps
import Mathlib.Tactic.Ring

/-!
# C117: the backward pass of `left_act` is the transpose of the action

`left_act` is linear in the group tensor and linear in the acted tensor.  For an output gradient `c`, the gradients
that reach the inputs are the transposes of these linear maps at `c`: `⟨c, act(dg, t)⟩ = ⟨grad_g, dg⟩` for every `dg`
and `⟨c, act(g, dt)⟩ = ⟨grad_t, dt⟩` for every `dt`, whatever was broadcast.
-/

namespace Verif.Lie.Batch

/-- The inner product of two tensors of shape `s`: the sum over all indices of the products. -/
noncomputable def inner (s : List ℕ) (x y : Tns) : ℝ := sumOver s fun i => x.val i * y.val i

/-- The two gradients before the engine's sum. -/
def RawGrad (g t c : Tns) (G B N O : List ℕ) (k : ℕ) (jg jt : Tns) : Prop :=
  jg.shape = N ++ [3, 3] ∧ jt.shape = N ++ O ++ [3, k] ∧
  (∀ b i l, In b N → jg.val (b ++ [i, l])
    = sumOver O fun o => ∑ j ∈ Finset.range k, c.val (b ++ o ++ [i, j]) * t.val (bidx B b ++ o ++ [l, j])) ∧
  ∀ b o l j, In b N → In o O → jt.val (b ++ o ++ [l, j])
    = ∑ i ∈ Finset.range 3, g.val (bidx G b ++ [i, l]) * c.val (b ++ o ++ [i, j])

theorem leftActBackward_long {g t c : Tns} {G B N O : List ℕ} {k : ℕ} (hg : g.shape = G ++ [3, 3])
    (ht : t.shape = B ++ O ++ [3, k]) (hN : bcast G B = some N) (hc : c.shape = N ++ O ++ [3, k])
    (hl : G.length ≤ B.length) :
    ∃ jg jt, leftActBackward g t O.length c = .ok (jg, jt) ∧ RawGrad g t c G B N O k jg jt := by
  have gn : g.ndim = G.length + 2 := by simp [Tns.ndim, hg]
  have tn : t.ndim = B.length + O.length + 2 := by simp [Tns.ndim, ht]; omega
  have hcnd : ¬ ((g.ndim : ℤ) + (O.length : ℤ) > t.ndim) := by rw [gn, tn]; omega
  have hNl : N.length = B.length := by rw [bcast_length hN]; omega
  obtain ⟨t', ht', hs', hv'⟩ := permute_swap (t := t) (X := B) (Y := O) (Z := [3, k]) rfl ht
  obtain ⟨c', hc', cs', cv'⟩ := permute_swap (t := c) (X := N) (Y := O) (Z := [3, k]) rfl hc
  obtain ⟨ms, mv⟩ := mT_shape hs'
  obtain ⟨gs, gv⟩ := mT_shape hg
  have hNB : bcast N B = some N := by
    rw [bcast_comm]; exact bcast_idem (by rw [bcast_comm]; exact hN)
  have hb1 : bcast (O ++ N) (O ++ B) = some (O ++ N) := by
    rw [bcast_append_both O hNl, hNB]; rfl
  have hb2 : bcast G (O ++ N) = some (O ++ N) := by
    rw [bcast_append O (by omega), bcast_idem hN]; rfl
  obtain ⟨r1, h1, s1, v1⟩ := (matmul_eq cs' ms).2.2 rfl _ hb1
  obtain ⟨r2, h2, s2, v2⟩ := (matmul_eq gs cs').2.2 rfl _ hb2
  obtain ⟨p1, q1, w1, x1⟩ := permute_swap (t := r1) (X := O) (Y := N) (Z := [3, 3]) rfl s1
  obtain ⟨p2, q2, w2, x2⟩ := permute_swap (t := r2) (X := O) (Y := N) (Z := [3, k]) rfl s2
  rw [hNl] at hc' q1 q2
  have e : leftActBackward g t O.length c = .ok (if (O.length : ℤ) > 0 then
      sumDims p1 ((t.ndim : ℤ) - 2 - O.length).toNat (O.length : ℤ).toNat else p1, p2) := by
    unfold leftActBackward
    simp only [if_neg hcnd]
    rw [tn, permuteOpDim_eq, ht', hc', unpermuteOpDim_eq]
    dsimp only
    rw [h1, h2]
    dsimp only
    rw [q1, q2]
  refine ⟨_, _, e, ?_, w2, ?_, ?_⟩
  · split
    · have ha : ((t.ndim : ℤ) - 2 - O.length).toNat = N.length := by rw [tn]; omega
      simp only [ha, Int.toNat_natCast, sumDims, w1]
      rw [← List.length_append, List.drop_left' rfl, List.append_assoc, List.take_left' rfl]
    · have : O = [] := by
        cases O with
        | nil => rfl
        | cons o O => rename_i h; simp at h
      rw [w1, this, List.append_nil]
  · intro b i l hb
    have hbl := hb.length_eq
    have key : ∀ o, In o O → p1.val (b ++ o ++ [i, l])
        = ∑ j ∈ Finset.range k, c.val (b ++ o ++ [i, j]) * t.val (bidx B b ++ o ++ [l, j]) := by
      intro o ho
      have hol := ho.length_eq
      rw [x1 o b [i, l] hol hbl rfl, v1 (o ++ b) i l (by simp [hol, hbl])]
      apply Finset.sum_congr rfl
      intro q _
      have hBb : (bidx B b).length = B.length := bidx_length (by omega)
      rw [bidx_append hol.symm hbl.symm, bidx_append hol.symm (by omega), bidx_self ho, bidx_self hb,
        cv' b o [i, q] hbl hol rfl, mv (o ++ bidx B b) q l (by simp [hol, hBb]), hv' (bidx B b) o [l, q] hBb hol rfl]
    split
    · have ha : ((t.ndim : ℤ) - 2 - O.length).toNat = N.length := by rw [tn]; omega
      simp only [ha, Int.toNat_natCast, sumDims, w1]
      rw [List.append_assoc, List.drop_left' rfl, List.take_left' rfl, ← hbl, List.take_left' rfl, List.drop_left' rfl]
      exact sumOver_congr key
    · have : O = [] := by
        cases O with
        | nil => rfl
        | cons o O => rename_i h; simp at h
      subst this
      have := key [] List.Forall₂.nil
      simpa [sumOver] using this
  · intro b o l j hb ho
    have hbl := hb.length_eq
    have hol := ho.length_eq
    rw [x2 o b [l, j] hol hbl rfl, v2 (o ++ b) l j (by simp [hol, hbl])]
    apply Finset.sum_congr rfl
    intro q _
    rw [bidx_skip _ _ (by omega), bidx_append hol.symm hbl.symm, bidx_self ho, bidx_self hb,
      cv' b o [q, j] hbl hol rfl, gv _ _ _ (bidx_length (by omega))]

theorem leftActBackward_spec {g t c : Tns} {G B N O : List ℕ} {k : ℕ} (hg : g.shape = G ++ [3, 3])
    (ht : t.shape = B ++ O ++ [3, k]) (hN : bcast G B = some N) (hc : c.shape = N ++ O ++ [3, k]) :
    ∃ jg jt, leftActBackward g t O.length c = .ok (jg, jt) ∧ RawGrad g t c G B N O k jg jt := by
  by_cases hl : G.length ≤ B.length
  · exact leftActBackward_long hg ht hN hc hl
  · have gn : g.ndim = G.length + 2 := by simp [Tns.ndim, hg]
    have tn : t.ndim = B.length + O.length + 2 := by simp [Tns.ndim, ht]; omega
    have hcnd : (g.ndim : ℤ) + (O.length : ℤ) > t.ndim := by rw [gn, tn]; omega
    have hn : ((g.ndim : ℤ) + (O.length : ℤ)).toNat = g.ndim + O.length := by omega
    have hm : (g.ndim + O.length) - t.ndim = G.length - B.length := by omega
    set t2 := fillDims t (g.ndim + O.length) with ht2
    have t2s : t2.shape = (List.replicate (G.length - B.length) 1 ++ B) ++ O ++ [3, k] := by
      rw [ht2, fillDims_shape, hm, ht]; simp
    have t2n : t2.ndim = g.ndim + O.length := by
      rw [Tns.ndim, t2s, gn]; simp; omega
    have hc2 : ¬ ((g.ndim : ℤ) + (O.length : ℤ) > t2.ndim) := by rw [t2n]; omega
    have e : leftActBackward g t O.length c = leftActBackward g t2 O.length c := by
      unfold leftActBackward
      simp only [if_pos hcnd, hn, ← ht2, if_neg hc2]
    have hb : bcast G (List.replicate (G.length - B.length) 1 ++ B) = some N := by rw [bcast_ones (by omega)]; exact hN
    have hNl : N.length = G.length := by rw [bcast_length hN]; omega
    obtain ⟨jg, jt, hj, r1, r2, r3, r4⟩ := leftActBackward_long hg t2s hb hc (by simp; omega)
    refine ⟨jg, jt, by rw [e, hj], r1, r2, fun b i l hbN => ?_, r4⟩
    have hbl := hbN.length_eq
    rw [r3 b i l hbN]
    apply sumOver_congr
    intro o _
    apply Finset.sum_congr rfl
    intro j _
    congr 1
    rw [ht2]
    show t.val (List.drop _ _) = _
    rw [hm, bidx_ones (by omega), List.append_assoc, List.append_assoc]
    congr 1
    rw [List.drop_left' (by simp)]
    simp

/-- The action of a group direction, whose entries are paired with the gradient of the group. -/
theorem group_adjoint {g t c dg r : Tns} {G B N O : List ℕ} {k : ℕ} {jg jt : Tns}
    (hN : bcast G B = some N) (hJ : RawGrad g t c G B N O k jg jt) (hr : IsAction dg t G B O k r) :
    inner (N ++ O ++ [3, k]) c r = inner (G ++ [3, 3]) (sumTo jg (G ++ [3, 3])) dg := by
  obtain ⟨N', hN', -, hv⟩ := hr
  rw [hN] at hN'
  cases hN'
  have hlen := bcast_length hN
  have hin : ∀ b, In b N → In (bidx G b) G := fun b hb => bidx_in hN hb
  unfold inner
  rw [sumTo_adjoint, hJ.1]
  · rw [sumOver_append, sumOver_append, sumOver_append]
    apply sumOver_congr
    intro b hb
    have hbl := hb.length_eq
    have lhs : (sumOver O fun o => sumOver [3, k] fun x => c.val (b ++ o ++ x) * r.val (b ++ o ++ x))
        = sumOver O fun o => ∑ i ∈ Finset.range 3, ∑ l ∈ Finset.range 3, ∑ j ∈ Finset.range k,
            c.val (b ++ o ++ [i, j]) * t.val (bidx B b ++ o ++ [l, j]) * dg.val (bidx G b ++ [i, l]) := by
      apply sumOver_congr
      intro o ho
      rw [sumOver_two]
      apply Finset.sum_congr rfl
      intro i _
      rw [Finset.sum_comm]
      apply Finset.sum_congr rfl
      intro j _
      rw [hv b o i j hbl ho, actAt, Finset.mul_sum]
      apply Finset.sum_congr rfl
      intro l _
      ring
    rw [lhs, sumOver_two, sumOver_sum]
    apply Finset.sum_congr rfl
    intro i hi
    rw [sumOver_sum]
    apply Finset.sum_congr rfl
    intro l hl
    rw [hJ.2.2.1 b i l hb, sumOver_mul]
    rw [bidx_append_le (t := [3, 3]) (b := [i, l]) (by omega) rfl,
      bidx_self (In.two (Finset.mem_range.mp hi) (Finset.mem_range.mp hl))]
    apply sumOver_congr
    intro o _
    rw [Finset.sum_mul]
  · rw [hJ.1]
    intro a ha
    obtain ⟨b, x, rfl, hb, hx⟩ := ha.split
    have hbl := hb.length_eq
    have hxl := hx.length_eq
    rw [bidx_append_le (by omega) hxl.symm, bidx_self hx]
    exact (hin b hb).append hx

/-- The action on a direction of the tensor, whose entries are paired with the gradient of the tensor. -/
theorem tensor_adjoint {g t c dt r : Tns} {G B N O : List ℕ} {k : ℕ} {jg jt : Tns}
    (hN : bcast G B = some N) (hJ : RawGrad g t c G B N O k jg jt) (hr : IsAction g dt G B O k r) :
    inner (N ++ O ++ [3, k]) c r = inner (B ++ O ++ [3, k]) (sumTo jt (B ++ O ++ [3, k])) dt := by
  obtain ⟨N', hN', -, hv⟩ := hr
  rw [hN] at hN'
  cases hN'
  have hlen := bcast_length hN
  have hin : ∀ b, In b N → In (bidx B b) B := fun b hb => bidx_in (by rw [bcast_comm]; exact hN) hb
  have hsplit : ∀ b o x, In b N → In o O → In x [3, k] →
      bidx (B ++ O ++ [3, k]) (b ++ o ++ x) = bidx B b ++ o ++ x := by
    intro b o x hb ho hx
    have hbl := hb.length_eq
    rw [List.append_assoc, List.append_assoc, bidx_append_le (by omega) (ho.append hx).length_eq.symm,
      bidx_self (ho.append hx), List.append_assoc]
  unfold inner
  rw [sumTo_adjoint, hJ.2.1]
  · rw [sumOver_append, sumOver_append, sumOver_append, sumOver_append]
    apply sumOver_congr
    intro b hb
    have hbl := hb.length_eq
    apply sumOver_congr
    intro o ho
    rw [sumOver_two, sumOver_two]
    have lhs : (∑ i ∈ Finset.range 3, ∑ j ∈ Finset.range k, c.val (b ++ o ++ [i, j]) * r.val (b ++ o ++ [i, j]))
        = ∑ j ∈ Finset.range k, ∑ l ∈ Finset.range 3, ∑ i ∈ Finset.range 3,
            g.val (bidx G b ++ [i, l]) * c.val (b ++ o ++ [i, j]) * dt.val (bidx B b ++ o ++ [l, j]) := by
      rw [Finset.sum_comm]
      apply Finset.sum_congr rfl
      intro j _
      rw [Finset.sum_comm]
      apply Finset.sum_congr rfl
      intro i _
      rw [hv b o i j hbl ho, actAt, Finset.mul_sum]
      apply Finset.sum_congr rfl
      intro l _
      ring
    rw [lhs, Finset.sum_comm]
    apply Finset.sum_congr rfl
    intro l hl
    apply Finset.sum_congr rfl
    intro j hj
    rw [hJ.2.2.2 b o l j hb ho, hsplit b o _ hb ho (In.two (Finset.mem_range.mp hl) (Finset.mem_range.mp hj)),
      Finset.sum_mul]
  · rw [hJ.2.1]
    intro a ha
    obtain ⟨bo, x, rfl, hbo, hx⟩ := ha.split
    obtain ⟨b, o, rfl, hb, ho⟩ := hbo.split
    rw [hsplit b o x hb ho hx]
    exact ((hin b hb).append ho).append hx

/-- **C117 (`SO3.left_act`).** For every output gradient the backward pass returns, with the shapes of the inputs, the
transposes of the action applied to it. -/
theorem so3LeftActGrad_spec {g t c : Tns} {G B N O : List ℕ} {k : ℕ} {d : Option ℤ} (hg : g.shape = G ++ [3, 3])
    (ht : t.shape = B ++ O ++ [3, k]) (hd : DimOutIs G B O d) (hN : bcast G B = some N)
    (hc : c.shape = N ++ O ++ [3, k]) :
    ∃ jg jt, so3LeftActGrad g t d c = .ok (jg, jt) ∧ jg.shape = g.shape ∧ jt.shape = t.shape ∧
      (∀ dg r, dg.shape = g.shape → so3LeftAct dg t d = .ok r → inner c.shape c r = inner g.shape jg dg) ∧
      ∀ dt r, dt.shape = t.shape → so3LeftAct g dt d = .ok r → inner c.shape c r = inner t.shape jt dt := by
  obtain ⟨jg, jt, hj, hJ⟩ := leftActBackward_spec hg ht hN hc
  refine ⟨sumTo jg g.shape, sumTo jt t.shape, ?_, rfl, rfl, fun dg r hdg hr => ?_, fun dt r hdt hr => ?_⟩
  · unfold so3LeftActGrad
    rw [dimOutOf_eq hg ht hd, hj]
  · obtain ⟨r', hr', ha⟩ := (so3LeftAct_spec (hdg.trans hg) ht hd).2 (by simp [hN])
    rw [hr] at hr'
    cases hr'
    rw [hc, hg]
    exact group_adjoint hN hJ ha
  · obtain ⟨r', hr', ha⟩ := (so3LeftAct_spec hg (hdt.trans ht) hd).2 (by simp [hN])
    rw [hr] at hr'
    cases hr'
    rw [hc, ht]
    exact tensor_adjoint hN hJ ha

/-- The hypotheses for a batch `(2, 1)` of rotations and a tensor of shape `(5, 7, 3, 4)` with one kept dimension. -/
example : ∃ g t c : Tns, g.shape = [2, 1] ++ [3, 3] ∧ t.shape = [5] ++ [7] ++ [3, 4] ∧
    DimOutIs [2, 1] [5] [7] (some 1) ∧ bcast [2, 1] [5] = some [2, 5] ∧ c.shape = [2, 5] ++ [7] ++ [3, 4] :=
  ⟨⟨[2, 1, 3, 3], fun _ => 1⟩, ⟨[5, 7, 3, 4], fun _ => 2⟩, ⟨[2, 5, 7, 3, 4], fun _ => 3⟩, rfl, rfl, Or.inl rfl,
    by decide, rfl⟩

theorem rotationOf_shape {g : Tns} {G : List ℕ} (hg : g.shape = G ++ [3, 4]) :
    (rotationOf g).shape = G ++ [3, 3] := by
  simp [rotationOf, Tns.ndim, hg]
  rw [show G ++ [3, 4] = (G ++ [3]) ++ [4] by simp, List.take_left' (by simp)]
  simp

/-- Appending a zero column does not change the products with the rotation. -/
theorem catZero_inner {jg dg : Tns} {G N : List ℕ} (hj : jg.shape = N ++ [3, 3]) (hN : ∀ b, In b N → In (bidx G b) G)
    (hl : G.length ≤ N.length) :
    inner (G ++ [3, 4]) (sumTo (catZero jg) (G ++ [3, 4])) dg
      = inner (G ++ [3, 3]) (sumTo jg (G ++ [3, 3])) dg := by
  have jn : jg.ndim - 1 = N.length + 1 := by simp [Tns.ndim, hj]
  have j3 : jg.shape.getD (N.length + 1) 0 = 3 := by simp [hj]
  have hs : (catZero jg).shape = N ++ [3, 4] := by
    simp only [catZero, jn, j3]
    rw [hj, show N ++ [3, 3] = (N ++ [3]) ++ [3] by simp, List.take_left' (by simp)]
    simp
  have hin : ∀ n, ∀ b, In b (N ++ [3, n]) → In (bidx (G ++ [3, n]) b) (G ++ [3, n]) := by
    intro n a ha
    obtain ⟨b, x, rfl, hb, hx⟩ := ha.split
    rw [bidx_append_le (by have := hb.length_eq; omega) hx.length_eq.symm, bidx_self hx]
    exact (hN b hb).append hx
  unfold inner
  rw [sumTo_adjoint (by rw [hs]; exact hin 4), sumTo_adjoint (by rw [hj]; exact hin 3), hs, hj, sumOver_append,
    sumOver_append]
  apply sumOver_congr
  intro b hb
  have hbl := hb.length_eq
  rw [sumOver_two, sumOver_two]
  apply Finset.sum_congr rfl
  intro i hi
  have hv : ∀ x, (catZero jg).val (b ++ [i, x]) = if x < 3 then jg.val (b ++ [i, x]) else 0 := by
    intro x
    simp only [catZero, jn, j3]
    have : (b ++ [i, x]).getD (N.length + 1) 0 = x := by rw [← hbl]; simp
    rw [this]
  have hi3 := Finset.mem_range.mp hi
  have hb' : ∀ n x, x < n → bidx (G ++ [3, n]) (b ++ [i, x]) = bidx G b ++ [i, x] := by
    intro n x hx
    rw [bidx_append_le (t := [3, n]) (b := [i, x]) (by omega) rfl, bidx_self (In.two hi3 hx)]
  rw [Finset.sum_range_succ _ 3]
  simp only [hv, Nat.lt_irrefl, if_false, zero_mul, add_zero]
  apply Finset.sum_congr rfl
  intro x hx
  have hx3 := Finset.mem_range.mp hx
  rw [if_pos hx3, hb' 4 x (by omega), hb' 3 x hx3]

/-- **C117 (`SE3.left_act`).** The same for poses; the translations get a zero gradient because the action does not
depend on them. -/
theorem se3LeftActGrad_spec {g t c : Tns} {G B N O : List ℕ} {k : ℕ} {d : Option ℤ} (hg : g.shape = G ++ [3, 4])
    (ht : t.shape = B ++ O ++ [3, k]) (hd : DimOutIs G B O d) (hN : bcast G B = some N)
    (hc : c.shape = N ++ O ++ [3, k]) :
    ∃ jg jt, se3LeftActGrad g t d c = .ok (jg, jt) ∧ jg.shape = g.shape ∧ jt.shape = t.shape ∧
      (∀ dg r, dg.shape = g.shape → se3LeftAct dg t d = .ok r → inner c.shape c r = inner g.shape jg dg) ∧
      ∀ dt r, dt.shape = t.shape → se3LeftAct g dt d = .ok r → inner c.shape c r = inner t.shape jt dt := by
  obtain ⟨jg, jt, hj, hJ⟩ := leftActBackward_spec (rotationOf_shape hg) ht hN hc
  have hlen := bcast_length hN
  refine ⟨sumTo (catZero jg) g.shape, sumTo jt t.shape, ?_, rfl, rfl, fun dg r hdg hr => ?_, fun dt r hdt hr => ?_⟩
  · unfold se3LeftActGrad
    rw [dimOutOf_eq hg ht hd, hj]
  · obtain ⟨r', hr', ha⟩ := (se3LeftAct_spec (hdg.trans hg) ht hd).2 (by simp [hN])
    rw [hr] at hr'
    cases hr'
    rw [hc, hg, catZero_inner hJ.1 (fun b hb => bidx_in hN hb) (by omega)]
    exact group_adjoint (dg := dg) hN hJ ha
  · obtain ⟨r', hr', ha⟩ := (se3LeftAct_spec hg (hdt.trans ht) hd).2 (by simp [hN])
    rw [hr] at hr'
    cases hr'
    rw [hc, ht]
    exact tensor_adjoint hN hJ ha

/-! ### `left_project` -/

/-- Sums against a transposed direction are sums of the transposed gradient. -/
theorem mT_inner {jg y y' : Tns} {G N : List ℕ} (hj : jg.shape = N ++ [3, 3]) (hN : ∀ b, In b N → In (bidx G b) G)
    (hl : G.length ≤ N.length)
    (hy : ∀ a i j, a.length = G.length → i < 3 → j < 3 → y'.val (a ++ [i, j]) = y.val (a ++ [j, i])) :
    inner (G ++ [3, 3]) (sumTo jg (G ++ [3, 3])) y' = inner (G ++ [3, 3]) (sumTo (mT jg) (G ++ [3, 3])) y := by
  obtain ⟨ms, mv⟩ := mT_shape hj
  have hin : ∀ b, In b (N ++ [3, 3]) → In (bidx (G ++ [3, 3]) b) (G ++ [3, 3]) := by
    intro a ha
    obtain ⟨b, x, rfl, hb, hx⟩ := ha.split
    rw [bidx_append_le (by have := hb.length_eq; omega) hx.length_eq.symm, bidx_self hx]
    exact (hN b hb).append hx
  unfold inner
  rw [sumTo_adjoint (by rw [hj]; exact hin), sumTo_adjoint (by rw [ms]; exact hin), hj, ms, sumOver_append,
    sumOver_append]
  apply sumOver_congr
  intro b hb
  have hbl := hb.length_eq
  rw [sumOver_two, sumOver_two, Finset.sum_comm]
  apply Finset.sum_congr rfl
  intro i hi
  apply Finset.sum_congr rfl
  intro j hj'
  have hi3 := Finset.mem_range.mp hi
  have hj3 := Finset.mem_range.mp hj'
  rw [bidx_append_le (t := [3, 3]) (b := [j, i]) (by omega) rfl, bidx_self (In.two hj3 hi3),
    bidx_append_le (t := [3, 3]) (b := [i, j]) (by omega) rfl, bidx_self (In.two hi3 hj3), mv b i j hbl,
    hy _ j i (bidx_length (by omega)) hj3 hi3]

theorem liftLast_spec {entry : (ℕ → ℝ) → ℕ → ℕ → ℝ} {cols dof : ℕ} {c : Tns} {A : List ℕ} (hc : c.shape = A ++ [dof]) :
    (liftLast entry cols c).shape = A ++ [3, cols] ∧
    ∀ a i j, a.length = A.length → (liftLast entry cols c).val (a ++ [i, j]) = entry (fun x => c.val (a ++ [x])) i j := by
  have cn : c.ndim - 1 = A.length := by simp [Tns.ndim, hc]
  constructor
  · simp only [liftLast, cn]
    rw [hc, List.take_left' rfl]
  · intro a i j ha
    simp only [liftLast, cn, ← ha]
    rw [List.take_left' rfl]
    simp

theorem sumOver_one (n : ℕ) (f : List ℕ → ℝ) : sumOver [n] f = ∑ i ∈ Finset.range n, f [i] := rfl

/-- `lift` is the transpose of `project`. -/
theorem so3_project_adjoint {c r : Tns} {A : List ℕ} (hc : c.shape = A ++ [3]) (hr : r.shape = A ++ [3, 3]) :
    inner (A ++ [3]) c (projectLast projEntry 3 r) = inner (A ++ [3, 3]) (liftLast liftEntry 3 c) r := by
  unfold inner
  rw [sumOver_append, sumOver_append]
  apply sumOver_congr
  intro a ha
  have hal := ha.length_eq
  rw [sumOver_one, sumOver_two]
  simp only [(projectLast_spec hr hal _).2, (liftLast_spec hc).2 a _ _ hal]
  simp only [Finset.sum_range_succ, Finset.sum_range_zero, projEntry, liftEntry]
  ring

theorem se3_project_adjoint {c r : Tns} {A : List ℕ} (hc : c.shape = A ++ [6]) (hr : r.shape = A ++ [3, 4]) :
    inner (A ++ [6]) c (projectLast se3ProjEntry 6 r) = inner (A ++ [3, 4]) (liftLast se3LiftEntry 4 c) r := by
  unfold inner
  rw [sumOver_append, sumOver_append]
  apply sumOver_congr
  intro a ha
  have hal := ha.length_eq
  rw [sumOver_one, sumOver_two]
  simp only [(projectLast_spec hr hal _).2, (liftLast_spec hc).2 a _ _ hal]
  simp [Finset.sum_range_succ, se3ProjEntry, projEntry, liftEntry, se3LiftEntry]
  ring

/-- **C117 (`SO3.left_project`).** The gradients are the transposes of the projection of `Rᵀ M`. -/
theorem so3LeftProjectGrad_spec {g t c : Tns} {G B N O : List ℕ} {d : Option ℤ} (hg : g.shape = G ++ [3, 3])
    (ht : t.shape = B ++ O ++ [3, 3]) (hd : DimOutIs G B O d) (hN : bcast G B = some N)
    (hc : c.shape = N ++ O ++ [3]) :
    ∃ jg jt, so3LeftProjectGrad g t d c = .ok (jg, jt) ∧ jg.shape = g.shape ∧ jt.shape = t.shape ∧
      (∀ dg r, dg.shape = g.shape → so3LeftProject dg t d = .ok r → inner c.shape c r = inner g.shape jg dg) ∧
      ∀ dt r, dt.shape = t.shape → so3LeftProject g dt d = .ok r → inner c.shape c r = inner t.shape jt dt := by
  obtain ⟨hls, -⟩ := liftLast_spec (entry := liftEntry) (cols := 3) hc
  obtain ⟨jg, jt, hj, hJ⟩ := leftActBackward_spec (mT_shape hg).1 ht hN hls
  have hlen := bcast_length hN
  have fwd : ∀ {g' t' p : Tns}, g'.shape = G ++ [3, 3] → t'.shape = B ++ O ++ [3, 3] → so3LeftProject g' t' d = .ok p →
      ∃ r, IsAction (mT g') t' G B O 3 r ∧ p = projectLast projEntry 3 r := by
    intro g' t' p hg' ht' hp
    obtain ⟨r, hr, ha⟩ := (so3LeftAct_spec (d := d) (mT_shape hg').1 ht' hd).2 (by simp [hN])
    unfold so3LeftProject at hp
    rw [if_neg (by simp [drop_two hg']), if_neg (by simp [drop_two ht']), hr] at hp
    cases hp
    exact ⟨r, ha, rfl⟩
  have hshape : ∀ {g' t' r : Tns}, IsAction g' t' G B O 3 r → r.shape = N ++ O ++ [3, 3] := by
    rintro g' t' r ⟨N', hN', hs, -⟩
    rw [hN] at hN'
    cases hN'
    exact hs
  refine ⟨sumTo (mT jg) g.shape, sumTo jt t.shape, ?_, rfl, rfl, fun dg p hdg hp => ?_, fun dt p hdt hp => ?_⟩
  · unfold so3LeftProjectGrad leftProjectBackward
    rw [dimOutOf_eq hg ht hd, hj]
  · obtain ⟨r, ha, rfl⟩ := fwd (hdg.trans hg) ht hp
    rw [hc, hg, so3_project_adjoint hc (hshape ha), group_adjoint hN hJ ha]
    exact mT_inner hJ.1 (fun b hb => bidx_in hN hb) (by omega)
      fun a i j hal _ _ => (mT_shape (hdg.trans hg)).2 a i j hal
  · obtain ⟨r, ha, rfl⟩ := fwd hg (hdt.trans ht) hp
    rw [hc, ht, so3_project_adjoint hc (hshape ha), tensor_adjoint hN hJ ha]

/-- **C117 (`SE3.left_project`).** Likewise, with a zero gradient for the translations. -/
theorem se3LeftProjectGrad_spec {g t c : Tns} {G B N O : List ℕ} {d : Option ℤ} (hg : g.shape = G ++ [3, 4])
    (ht : t.shape = B ++ O ++ [3, 4]) (hd : DimOutIs G B O d) (hN : bcast G B = some N)
    (hc : c.shape = N ++ O ++ [6]) :
    ∃ jg jt, se3LeftProjectGrad g t d c = .ok (jg, jt) ∧ jg.shape = g.shape ∧ jt.shape = t.shape ∧
      (∀ dg r, dg.shape = g.shape → se3LeftProject dg t d = .ok r → inner c.shape c r = inner g.shape jg dg) ∧
      ∀ dt r, dt.shape = t.shape → se3LeftProject g dt d = .ok r → inner c.shape c r = inner t.shape jt dt := by
  obtain ⟨hls, -⟩ := liftLast_spec (entry := se3LiftEntry) (cols := 4) hc
  obtain ⟨jg, jt, hj, hJ⟩ := leftActBackward_spec (mT_shape (rotationOf_shape hg)).1 ht hN hls
  have hlen := bcast_length hN
  have gn : ∀ {g' : Tns}, g'.shape = G ++ [3, 4] → ∀ a i j, a.length = G.length → j < 3 →
      (se3Inverse g').val (a ++ [i, j]) = g'.val (a ++ [j, i]) := by
    intro g' hg' a i j ha hj
    have : g'.ndim - 2 = a.length := by simp [Tns.ndim, hg', ha]
    simp only [se3Inverse, this]
    rw [if_pos (by simpa using hj)]
    simp
  have fwd : ∀ {g' t' p : Tns}, g'.shape = G ++ [3, 4] → t'.shape = B ++ O ++ [3, 4] → se3LeftProject g' t' d = .ok p →
      ∃ r, IsAction (se3Inverse g') t' G B O 4 r ∧ p = projectLast se3ProjEntry 6 r := by
    intro g' t' p hg' ht' hp
    have hi : (se3Inverse g').shape = G ++ [3, 4] := hg'
    obtain ⟨r, hr, ha⟩ := (se3LeftAct_spec (d := d) hi ht' hd).2 (by simp [hN])
    unfold se3LeftProject at hp
    rw [if_neg (by simp [drop_two hg']), if_neg (by simp [drop_two ht']), hr] at hp
    cases hp
    exact ⟨r, ha, rfl⟩
  have hshape : ∀ {g' t' r : Tns}, IsAction g' t' G B O 4 r → r.shape = N ++ O ++ [3, 4] := by
    rintro g' t' r ⟨N', hN', hs, -⟩
    rw [hN] at hN'
    cases hN'
    exact hs
  have hmt := mT_shape (rotationOf_shape hg)
  have conv : ∀ {t' r : Tns}, IsAction (se3Inverse g) t' G B O 4 r → IsAction (mT (rotationOf g)) t' G B O 4 r := by
    rintro t' r ⟨N', hN', hs, hv⟩
    refine ⟨N', hN', hs, fun b o i j hb ho => ?_⟩
    rw [hv b o i j hb ho]
    unfold actAt
    apply Finset.sum_congr rfl
    intro l hl
    have hlb : (bidx G b).length = G.length := bidx_length (by rw [hb, bcast_length hN']; omega)
    rw [gn hg _ _ _ hlb (Finset.mem_range.mp hl), hmt.2 _ _ _ hlb]
    rfl
  refine ⟨sumTo (catZero (mT jg)) g.shape, sumTo jt t.shape, ?_, rfl, rfl, fun dg p hdg hp => ?_,
    fun dt p hdt hp => ?_⟩
  · unfold se3LeftProjectGrad leftProjectBackward
    rw [dimOutOf_eq hg ht hd, hj]
  · obtain ⟨r, ha, rfl⟩ := fwd (hdg.trans hg) ht hp
    rw [hc, hg, se3_project_adjoint hc (hshape ha), group_adjoint hN hJ ha,
      catZero_inner (mT_shape hJ.1).1 (fun b hb => bidx_in hN hb) (by omega)]
    exact mT_inner hJ.1 (fun b hb => bidx_in hN hb) (by omega)
      fun a i j hal _ hj3 => gn (hdg.trans hg) a i j hal hj3
  · obtain ⟨r, ha, rfl⟩ := fwd hg (hdt.trans ht) hp
    rw [hc, ht, se3_project_adjoint hc (hshape ha), tensor_adjoint hN hJ (conv ha)]

/-- The hypotheses for a batch of 5 poses without `dim_out`, or 2 kept dimensions. -/
example : DimOutIs [5] [1] [] none ∧ bcast [5] [1] = some [5] ∧ DimOutIs [5] [] [6, 2] (some 2) ∧
    bcast [5] [] = some [5] := ⟨Or.inr ⟨rfl, rfl⟩, by decide, Or.inl rfl, by decide⟩

/-! ### `compose` and `transform` -/

theorem matmul_adjoint {a b c : Tns} {A B N : List ℕ} {m l k : ℕ} (ha : a.shape = A ++ [m, l])
    (hb : b.shape = B ++ [l, k]) (hN : bcast A B = some N) (hc : c.shape = N ++ [m, k]) :
    ∃ ja jb, matmul c (mT b) = .ok ja ∧ matmul (mT a) c = .ok jb ∧ ja.shape = N ++ [m, l] ∧ jb.shape = N ++ [l, k] ∧
      (∀ da r, da.shape = a.shape → matmul da b = .ok r → inner c.shape c r = inner a.shape (sumTo ja a.shape) da) ∧
      ∀ db r, db.shape = b.shape → matmul a db = .ok r → inner c.shape c r = inner b.shape (sumTo jb b.shape) db := by
  obtain ⟨as, av⟩ := mT_shape ha
  obtain ⟨bs, bv⟩ := mT_shape hb
  have hNA : bcast A N = some N := bcast_idem hN
  have hNB : bcast N B = some N := by
    rw [bcast_comm]; exact bcast_idem (by rw [bcast_comm]; exact hN)
  have hlen := bcast_length hN
  obtain ⟨ja, h1, s1, v1⟩ := (matmul_eq hc bs).2.2 rfl N hNB
  obtain ⟨jb, h2, s2, v2⟩ := (matmul_eq as hc).2.2 rfl N hNA
  have hA : ∀ b, In b N → In (bidx A b) A := fun b hb => bidx_in hN hb
  have hB : ∀ b, In b N → In (bidx B b) B := fun b hb => bidx_in (by rw [bcast_comm]; exact hN) hb
  have hin : ∀ (S : List ℕ), (∀ b, In b N → In (bidx S b) S) → S.length ≤ N.length → ∀ x y b, In b (N ++ [x, y]) →
      In (bidx (S ++ [x, y]) b) (S ++ [x, y]) := by
    intro S hS hSl x y e he
    obtain ⟨b, z, rfl, hb, hz⟩ := he.split
    rw [bidx_append_le (by have := hb.length_eq; omega) hz.length_eq.symm, bidx_self hz]
    exact (hS b hb).append hz
  refine ⟨ja, jb, h1, h2, s1, s2, fun da r hda hr => ?_, fun db r hdb hr => ?_⟩
  · obtain ⟨r', hr', rs, rv⟩ := (matmul_eq (hda.trans ha) hb).2.2 rfl N hN
    rw [hr] at hr'
    cases hr'
    unfold inner
    rw [ha, hc, sumTo_adjoint (by rw [s1]; exact hin A hA (by omega) m l), s1, sumOver_append, sumOver_append]
    apply sumOver_congr
    intro b' hb'
    have hbl := hb'.length_eq
    rw [sumOver_two, sumOver_two]
    apply Finset.sum_congr rfl
    intro i hi
    have e : ∀ j ∈ Finset.range k, c.val (b' ++ [i, j]) * r.val (b' ++ [i, j])
        = ∑ q ∈ Finset.range l, c.val (b' ++ [i, j]) * b.val (bidx B b' ++ [q, j]) * da.val (bidx A b' ++ [i, q]) := by
      intro j _
      rw [rv b' i j hbl, Finset.mul_sum]
      apply Finset.sum_congr rfl
      intro q _
      ring
    rw [Finset.sum_congr rfl e, Finset.sum_comm]
    apply Finset.sum_congr rfl
    intro q hq
    rw [v1 b' i q hbl, Finset.sum_mul, bidx_append_le (t := [m, l]) (b := [i, q]) (by omega) rfl,
      bidx_self (In.two (Finset.mem_range.mp hi) (Finset.mem_range.mp hq))]
    apply Finset.sum_congr rfl
    intro j _
    rw [bidx_self hb', bv _ _ _ (bidx_length (by omega))]
  · obtain ⟨r', hr', rs, rv⟩ := (matmul_eq ha (hdb.trans hb)).2.2 rfl N hN
    rw [hr] at hr'
    cases hr'
    unfold inner
    rw [hb, hc, sumTo_adjoint (by rw [s2]; exact hin B hB (by omega) l k), s2, sumOver_append, sumOver_append]
    apply sumOver_congr
    intro b' hb'
    have hbl := hb'.length_eq
    rw [sumOver_two, sumOver_two, Finset.sum_comm]
    conv_rhs => rw [Finset.sum_comm]
    apply Finset.sum_congr rfl
    intro j hj
    have e : ∀ i ∈ Finset.range m, c.val (b' ++ [i, j]) * r.val (b' ++ [i, j])
        = ∑ q ∈ Finset.range l, a.val (bidx A b' ++ [i, q]) * c.val (b' ++ [i, j]) * db.val (bidx B b' ++ [q, j]) := by
      intro i _
      rw [rv b' i j hbl, Finset.mul_sum]
      apply Finset.sum_congr rfl
      intro q _
      ring
    rw [Finset.sum_congr rfl e, Finset.sum_comm]
    apply Finset.sum_congr rfl
    intro q hq
    rw [v2 b' q j hbl, Finset.sum_mul, bidx_append_le (t := [l, k]) (b := [q, j]) (by omega) rfl,
      bidx_self (In.two (Finset.mem_range.mp hq) (Finset.mem_range.mp hj))]
    apply Finset.sum_congr rfl
    intro i _
    rw [bidx_self hb', av _ _ _ (bidx_length (by omega))]

/-- **C117 (`SO3.compose`).** The gradients are the transposes of the product, summed over what was broadcast. -/
theorem so3ComposeGrad_spec {g h c : Tns} {G H N : List ℕ} (hg : g.shape = G ++ [3, 3]) (hh : h.shape = H ++ [3, 3])
    (hN : bcast G H = some N) (hc : c.shape = N ++ [3, 3]) :
    ∃ jg jh, matmulGrad g h c = .ok (jg, jh) ∧ jg.shape = g.shape ∧ jh.shape = h.shape ∧
      (∀ dg r, dg.shape = g.shape → so3Compose dg h = .ok r → inner c.shape c r = inner g.shape jg dg) ∧
      ∀ dh r, dh.shape = h.shape → so3Compose g dh = .ok r → inner c.shape c r = inner h.shape jh dh := by
  obtain ⟨ja, jb, h1, h2, -, -, h3, h4⟩ := matmul_adjoint hg hh hN hc
  have fwd : ∀ {g' h' r : Tns}, g'.shape = G ++ [3, 3] → h'.shape = H ++ [3, 3] → so3Compose g' h' = .ok r →
      matmul g' h' = .ok r := by
    intro g' h' r hg' hh' hr
    unfold so3Compose at hr
    rwa [if_neg (by simp [drop_two hg']), if_neg (by simp [drop_two hh'])] at hr
  refine ⟨sumTo ja g.shape, sumTo jb h.shape, ?_, rfl, rfl, fun dg r hdg hr => ?_, fun dh r hdh hr => ?_⟩
  · unfold matmulGrad
    rw [h1, h2]
  · exact h3 dg r hdg (fwd (hdg.trans hg) hh hr)
  · exact h4 dh r hdh (fwd hg (hdh.trans hh) hr)

theorem unsq_inner {x y : Tns} {A : List ℕ} (hx : x.shape = A) :
    inner (A ++ [1]) (unsq x) y = inner A x (sq y) := by
  unfold inner
  rw [sumOver_append]
  apply sumOver_congr
  intro a ha
  rw [sumOver_one, Finset.sum_range_one]
  have : x.ndim = a.length := by rw [Tns.ndim, hx, ha.length_eq]
  simp only [unsq, sq, this, List.take_left' rfl]

/-- **C117 (`SO3.transform`).** The gradients are the transposes of the rotation of the points. -/
theorem so3TransformGrad_spec {g t c : Tns} {G T N : List ℕ} (hg : g.shape = G ++ [3, 3]) (ht : t.shape = T ++ [3])
    (hN : bcast G T = some N) (hc : c.shape = N ++ [3]) :
    ∃ jg jt, so3TransformGrad g t c = .ok (jg, jt) ∧ jg.shape = g.shape ∧ jt.shape = t.shape ∧
      (∀ dg r, dg.shape = g.shape → so3Transform dg t = .ok r → inner c.shape c r = inner g.shape jg dg) ∧
      ∀ dt r, dt.shape = t.shape → so3Transform g dt = .ok r → inner c.shape c r = inner t.shape jt dt := by
  have us : ∀ {x : Tns} {X : List ℕ}, x.shape = X ++ [3] → (unsq x).shape = X ++ [3, 1] := by
    intro x X hx
    simp [unsq, hx]
  have hlen := bcast_length hN
  obtain ⟨ja, jb, h1, h2, s1, s2, h3, h4⟩ := matmul_adjoint hg (us ht) hN (us hc)
  have fwd : ∀ {g' t' r : Tns}, g'.shape = G ++ [3, 3] → t'.shape = T ++ [3] → so3Transform g' t' = .ok r →
      ∃ r', matmul g' (unsq t') = .ok r' ∧ r'.shape = N ++ [3, 1] ∧ r = sq r' := by
    intro g' t' r hg' ht' hr
    have tn : t'.ndim = T.length + 1 := by simp [Tns.ndim, ht']
    obtain ⟨r', hr', rs, -⟩ := (matmul_eq hg' (us ht')).2.2 rfl N hN
    unfold so3Transform at hr
    rw [if_neg (by simp [drop_two hg']), if_neg (by rw [tn]; simp [ht']), hr'] at hr
    cases hr
    exact ⟨r', hr', rs, rfl⟩
  have in1 : ∀ (r' : Tns), r'.shape = N ++ [3, 1] → inner c.shape c (sq r') = inner (unsq c).shape (unsq c) r' := by
    intro r' hr'
    have := unsq_inner (x := c) (y := r') rfl
    rw [← this]
    rfl
  refine ⟨sumTo ja g.shape, sumTo (sq jb) t.shape, ?_, rfl, rfl, fun dg r hdg hr => ?_, fun dt r hdt hr => ?_⟩
  · unfold so3TransformGrad
    rw [h1, h2]
  · obtain ⟨r', hr', rs, rfl⟩ := fwd (hdg.trans hg) ht hr
    rw [in1 r' rs]
    exact h3 dg r' hdg hr'
  · obtain ⟨r', hr', rs, rfl⟩ := fwd hg (hdt.trans ht) hr
    have hdu : (unsq dt).shape = (unsq t).shape := by simp [unsq, hdt]
    rw [in1 r' rs, h4 (unsq dt) r' hdu hr']
    have hT : ∀ b, In b N → In (bidx T b) T := fun b hb => bidx_in (by rw [bcast_comm]; exact hN) hb
    have sqs : (sq jb).shape = N ++ [3] := by
      simp only [sq, Tns.ndim, s2]
      rw [show N ++ [3, 1] = (N ++ [3]) ++ [1] by simp, List.take_left' (by simp)]
    unfold inner
    rw [us ht, ht, sumTo_adjoint, sumTo_adjoint, s2, sqs, show N ++ [3, 1] = (N ++ [3]) ++ [1] by simp,
      sumOver_append (N ++ [3])]
    · apply sumOver_congr
      intro e he
      obtain ⟨b, z, rfl, hb, hz⟩ := he.split
      have hbl := hb.length_eq
      rw [sumOver_one, Finset.sum_range_one]
      rw [show T ++ [3, 1] = (T ++ [3]) ++ [1] by simp,
        bidx_append_le (s := T ++ [3]) (t := [1]) (b := [0]) (by simp [hz.length_eq]; omega) rfl]
      have hdn : dt.ndim = (bidx (T ++ [3]) (b ++ z)).length := by
        rw [Tns.ndim, hdt, ht, bidx_length (by simp [hz.length_eq]; omega)]
      simp only [sq, unsq, hdn, List.take_left' rfl]
    · rw [sqs]
      intro e he
      obtain ⟨b, z, rfl, hb, hz⟩ := he.split
      rw [bidx_append_le (by have := hb.length_eq; omega) hz.length_eq.symm, bidx_self hz]
      exact (hT b hb).append hz
    · rw [s2]
      intro e he
      obtain ⟨b, z, rfl, hb, hz⟩ := he.split
      rw [bidx_append_le (by have := hb.length_eq; omega) hz.length_eq.symm, bidx_self hz]
      exact (hT b hb).append hz

end Verif.Lie.Batch
