import Verif.Lie.BatchSE3
import Verif.Lie.BatchGradProps
import Mathlib.Analysis.Calculus.Deriv.Pow
import Mathlib.Analysis.Calculus.Deriv.Mul
import Mathlib.Analysis.Calculus.Deriv.Add

/-!
# C118: `SE3.compose`, `transform` and `untransform` on batches, forwards and backwards

At every index of the broadcast batch shape the result is that of the single elements.  For an output gradient `c`, the
gradients are the transposed derivatives: the change of `⟨c, result⟩` under a change `s * dx` of an input is
`s * ⟨grad_x, dx⟩`, up to `s²`.
-/

namespace Verif.Lie.Batch

/-- `x + s * d`. -/
noncomputable def along (x d : Tns) (s : ℝ) : Tns := ⟨x.shape, fun i => x.val i + s * d.val i⟩

/-- `j` is the gradient at `x` of the pairing of `c` with the result of `f`: for every direction `d` the pairing
changes by `s * ⟨j, d⟩` and a multiple of `s²`. -/
def IsGrad (f : Tns → Except Err Tns) (c x j : Tns) : Prop :=
  j.shape = x.shape ∧ ∀ d, d.shape = x.shape → ∃ r e, f x = .ok r ∧
    ∀ s, ∃ rs, f (along x d s) = .ok rs ∧
      inner c.shape c rs = inner c.shape c r + s * inner x.shape j d + s ^ 2 * e

/-- What `IsGrad` says about derivatives. -/
theorem IsGrad.hasDerivAt {f : Tns → Except Err Tns} {c x j d : Tns} (h : IsGrad f c x j) (hd : d.shape = x.shape) :
    ∃ φ : ℝ → ℝ, (∀ s, ∃ rs, f (along x d s) = .ok rs ∧ φ s = inner c.shape c rs) ∧
      HasDerivAt φ (inner x.shape j d) 0 := by
  obtain ⟨r, e, -, hs⟩ := h.2 d hd
  refine ⟨fun s => inner c.shape c r + s * inner x.shape j d + s ^ 2 * e, fun s => ?_, ?_⟩
  · obtain ⟨rs, h1, h2⟩ := hs s
    exact ⟨rs, h1, h2.symm⟩
  · have h1 : HasDerivAt (fun s : ℝ => s * inner x.shape j d) (1 * inner x.shape j d) 0 :=
      (hasDerivAt_id' (0 : ℝ)).mul_const _
    have h2 : HasDerivAt (fun s : ℝ => s ^ 2 * e) (((2 : ℕ) * (0 : ℝ) ^ (2 - 1) * 1) * e) 0 :=
      ((hasDerivAt_id' (0 : ℝ)).pow 2).mul_const e
    have := (h1.const_add (inner c.shape c r)).add h2
    refine HasDerivAt.congr_deriv this ?_
    norm_num

/-! ### Sums over the entries -/

theorem sumOver_add (s : List ℕ) (f g : List ℕ → ℝ) : sumOver s (fun i => f i + g i) = sumOver s f + sumOver s g := by
  induction s generalizing f g with
  | nil => rfl
  | cons d s ih => simp only [sumOver, ih, Finset.sum_add_distrib]

theorem inner_mat {c r : Tns} {N : List ℕ} {m n : ℕ} : inner (N ++ [m, n]) c r
    = sumOver N fun b => ∑ i ∈ Finset.range m, ∑ j ∈ Finset.range n, c.val (b ++ [i, j]) * r.val (b ++ [i, j]) := by
  unfold inner
  rw [sumOver_append]
  rfl

theorem inner_vec {c r : Tns} {N : List ℕ} {m : ℕ} : inner (N ++ [m]) c r
    = sumOver N fun b => ∑ i ∈ Finset.range m, c.val (b ++ [i]) * r.val (b ++ [i]) := by
  unfold inner
  rw [sumOver_append]
  rfl

theorem sumTo_mat {j d : Tns} {A N : List ℕ} {m n : ℕ} (hj : j.shape = N ++ [m, n])
    (hA : ∀ b, In b N → In (bidx A b) A) (hl : A.length ≤ N.length) :
    inner (A ++ [m, n]) (sumTo j (A ++ [m, n])) d
      = sumOver N fun b => ∑ i ∈ Finset.range m, ∑ k ∈ Finset.range n, j.val (b ++ [i, k]) * d.val (bidx A b ++ [i, k]) := by
  have hin : ∀ b, In b (N ++ [m, n]) → In (bidx (A ++ [m, n]) b) (A ++ [m, n]) := by
    intro a ha
    obtain ⟨b, x, rfl, hb, hx⟩ := ha.split
    rw [bidx_append_le (by have := hb.length_eq; omega) hx.length_eq.symm, bidx_self hx]
    exact (hA b hb).append hx
  unfold inner
  rw [sumTo_adjoint (by rw [hj]; exact hin), hj, sumOver_append]
  apply sumOver_congr
  intro b hb
  have hbl := hb.length_eq
  rw [sumOver_two]
  apply Finset.sum_congr rfl
  intro i hi
  apply Finset.sum_congr rfl
  intro k hk
  rw [bidx_append_le (t := [m, n]) (b := [i, k]) (by omega) rfl,
    bidx_self (In.two (Finset.mem_range.mp hi) (Finset.mem_range.mp hk))]

theorem In.one {i m : ℕ} (h : i < m) : In [i] [m] := List.Forall₂.cons h List.Forall₂.nil

theorem sumTo_vec {j d : Tns} {A N : List ℕ} {m : ℕ} (hj : j.shape = N ++ [m])
    (hA : ∀ b, In b N → In (bidx A b) A) (hl : A.length ≤ N.length) :
    inner (A ++ [m]) (sumTo j (A ++ [m])) d
      = sumOver N fun b => ∑ i ∈ Finset.range m, j.val (b ++ [i]) * d.val (bidx A b ++ [i]) := by
  have hin : ∀ b, In b (N ++ [m]) → In (bidx (A ++ [m]) b) (A ++ [m]) := by
    intro a ha
    obtain ⟨b, x, rfl, hb, hx⟩ := ha.split
    rw [bidx_append_le (by have := hb.length_eq; omega) hx.length_eq.symm, bidx_self hx]
    exact (hA b hb).append hx
  unfold inner
  rw [sumTo_adjoint (by rw [hj]; exact hin), hj, sumOver_append]
  apply sumOver_congr
  intro b hb
  have hbl := hb.length_eq
  rw [sumOver_one]
  apply Finset.sum_congr rfl
  intro i hi
  rw [bidx_append_le (t := [m]) (b := [i]) (by omega) rfl, bidx_self (In.one (Finset.mem_range.mp hi))]

theorem bcast_lengths {A B N : List ℕ} (h : bcast A B = some N) : A.length ≤ N.length ∧ B.length ≤ N.length := by
  have := bcast_length h
  omega

theorem bidx_in_right {A B N b : List ℕ} (h : bcast A B = some N) (hb : In b N) : In (bidx B b) B :=
  bidx_in (by rw [bcast_comm]; exact h) hb

theorem bcast_right {A B N : List ℕ} (h : bcast A B = some N) : bcast N B = some N := by
  rw [bcast_comm]; exact bcast_idem (by rw [bcast_comm]; exact h)

theorem bcast_left {A B N : List ℕ} (h : bcast A B = some N) : bcast N A = some N := by
  rw [bcast_comm]; exact bcast_idem h

/-! ### `compose` -/

/-- **C118 (`SE3.compose`).** `(R₀R₁, R₀t₁ + t₀)` at the broadcast batch index. -/
theorem se3Compose_spec {g h : Tns} {G H : List ℕ} (hg : g.shape = G ++ [3, 4]) (hh : h.shape = H ++ [3, 4]) :
    (bcast G H = none → se3Compose g h = .error .torch) ∧
    ∀ N, bcast G H = some N → ∃ r, se3Compose g h = .ok r ∧ r.shape = N ++ [3, 4] ∧
      ∀ b i, In b N →
        (∀ j < 3, r.val (b ++ [i, j])
          = ∑ l ∈ Finset.range 3, g.val (bidx G b ++ [i, l]) * h.val (bidx H b ++ [l, j])) ∧
        r.val (b ++ [i, 3])
          = ∑ l ∈ Finset.range 3, g.val (bidx G b ++ [i, l]) * h.val (bidx H b ++ [l, 3]) + g.val (bidx G b ++ [i, 3]) := by
  obtain ⟨g1, g2⟩ := cols_shape 0 3 hg
  obtain ⟨g3, g4⟩ := cols_shape 3 1 hg
  obtain ⟨h1, h2⟩ := cols_shape 0 3 hh
  obtain ⟨h3, h4⟩ := cols_shape 3 1 hh
  have m1 := matmul_eq g1 h1
  have m2 := matmul_eq g1 h3
  unfold se3Compose
  rw [if_neg (by simp [drop_two hg]), if_neg (by simp [drop_two hh])]
  constructor
  · intro hN
    rw [m1.2.1 rfl hN]
  · intro N hN
    obtain ⟨hGl, hHl⟩ := bcast_lengths hN
    obtain ⟨r1, e1, s1, v1⟩ := m1.2.2 rfl N hN
    obtain ⟨r2, e2, s2, v2⟩ := m2.2.2 rfl N hN
    obtain ⟨r3, e3, s3, v3⟩ := (ewise_cols (f := (· + ·)) s2 g3).2 N (bcast_left hN)
    obtain ⟨r4, e4, s4, v4⟩ := catLast_ok s1 s3
    rw [e1, e2]
    dsimp only
    rw [e3]
    refine ⟨r4, e4, s4, fun b i hbN => ?_⟩
    have hb := hbN.length_eq
    have lG : (bidx G b).length = G.length := bidx_length (by omega)
    have lH : (bidx H b).length = H.length := bidx_length (by omega)
    constructor
    · intro j hj
      rw [v4 b i j hb, if_pos hj, v1 b i j hb]
      simp only [g2 _ _ _ lG, h2 _ _ _ lH, Nat.add_zero]
    · rw [v4 b i 3 hb, if_neg (by omega), v3 b i hb, g4 _ _ _ lG, bidx_self hbN, v2 b i 0 hb]
      simp only [g2 _ _ _ lG, h4 _ _ _ lH, Nat.add_zero, Nat.zero_add]

/-- A batch of 5 poses with one pose. -/
example : bcast [5] [] = some [5] ∧ bcast [5, 1] [4] = some [5, 4] := by decide

theorem sumOver_smul (s : List ℕ) (f : List ℕ → ℝ) (c : ℝ) : c * sumOver s f = sumOver s fun i => c * f i := by
  rw [mul_comm, sumOver_mul]
  apply sumOver_congr
  intro i _
  ring

theorem sumOver_quad {N : List ℕ} {X Y J E : List ℕ → ℝ} {s : ℝ} (h : ∀ b, In b N → X b = Y b + s * J b + s ^ 2 * E b) :
    sumOver N X = sumOver N Y + s * sumOver N J + s ^ 2 * sumOver N E := by
  rw [sumOver_smul, sumOver_smul, ← sumOver_add, ← sumOver_add]
  exact sumOver_congr h

theorem along_val (x d : Tns) (s : ℝ) (i : List ℕ) : (along x d s).val i = x.val i + s * d.val i := rfl

/-- **C118 (gradients of `SE3.compose`).** -/
theorem se3ComposeGrad_spec {g h c : Tns} {G H N : List ℕ} (hg : g.shape = G ++ [3, 4]) (hh : h.shape = H ++ [3, 4])
    (hN : bcast G H = some N) (hc : c.shape = N ++ [3, 4]) :
    ∃ jg jh, se3ComposeGrad g h c = .ok (jg, jh) ∧ IsGrad (fun x => se3Compose x h) c g jg ∧
      IsGrad (fun x => se3Compose g x) c h jh := by
  obtain ⟨hGl, hHl⟩ := bcast_lengths hN
  obtain ⟨g1, g2⟩ := cols_shape 0 3 hg
  obtain ⟨c1, c2⟩ := cols_shape 3 1 hc
  obtain ⟨t1, t2⟩ := mT_shape hh
  obtain ⟨t3, t4⟩ := mT_shape g1
  obtain ⟨a, ea, sa, va⟩ := (matmul_eq hc t1).2.2 rfl N (bcast_right hN)
  obtain ⟨j1, e1, s1, v1⟩ := (matmul_eq t3 hc).2.2 rfl N (bcast_idem hN)
  obtain ⟨j0, e0, s0, v0⟩ := catLast_ok sa c1
  have hGi : ∀ b, In b N → In (bidx G b) G := fun b hb => bidx_in hN hb
  have hHi : ∀ b, In b N → In (bidx H b) H := fun b hb => bidx_in_right hN hb
  refine ⟨sumTo j0 g.shape, sumTo j1 h.shape, ?_, ⟨rfl, fun d hd => ?_⟩, ⟨rfl, fun d hd => ?_⟩⟩
  · unfold se3ComposeGrad
    rw [ea, e1]
    dsimp only
    rw [e0]
  · obtain ⟨r, hr, -, rv⟩ := (se3Compose_spec hg hh).2 N hN
    refine ⟨r, sumOver N fun _ => 0, hr, fun s => ?_⟩
    obtain ⟨rs, hrs, -, rsv⟩ := (se3Compose_spec (g := along g d s) hg hh).2 N hN
    refine ⟨rs, hrs, ?_⟩
    rw [hc, hg, sumTo_mat s0 hGi hGl, inner_mat, inner_mat]
    apply sumOver_quad
    intro b hbN
    have hb := hbN.length_eq
    have lH : (bidx H b).length = H.length := bidx_length (by omega)
    have A0 : ∀ i j, j < 3 → r.val (b ++ [i, j]) = _ := fun i j hj => (rv b i hbN).1 j hj
    have A3 : ∀ i, r.val (b ++ [i, 3]) = _ := fun i => (rv b i hbN).2
    have B0 : ∀ i j, j < 3 → rs.val (b ++ [i, j]) = _ := fun i j hj => (rsv b i hbN).1 j hj
    have B3 : ∀ i, rs.val (b ++ [i, 3]) = _ := fun i => (rsv b i hbN).2
    have C0 : ∀ i j, j < 3 → j0.val (b ++ [i, j])
        = ∑ q ∈ Finset.range 4, c.val (b ++ [i, q]) * h.val (bidx H b ++ [j, q]) := by
      intro i j hj
      rw [v0 b i j hb, if_pos hj, va b i j hb]
      apply Finset.sum_congr rfl
      intro q _
      rw [bidx_self hbN, t2 _ _ _ lH]
    have C3 : ∀ i, j0.val (b ++ [i, 3]) = c.val (b ++ [i, 3]) := by
      intro i
      rw [v0 b i 3 hb, if_neg (by omega), c2 _ _ _ hb]
    rw [Finset.mul_sum, mul_zero, add_zero, ← Finset.sum_add_distrib]
    apply Finset.sum_congr rfl
    intro i _
    simp only [Finset.sum_range_succ, Finset.sum_range_zero, B3, A3, C3]
    rw [B0 i 0 (by omega), B0 i 1 (by omega), B0 i 2 (by omega), A0 i 0 (by omega), A0 i 1 (by omega),
      A0 i 2 (by omega), C0 i 0 (by omega), C0 i 1 (by omega), C0 i 2 (by omega)]
    simp only [Finset.sum_range_succ, Finset.sum_range_zero, along_val]
    ring
  · obtain ⟨r, hr, -, rv⟩ := (se3Compose_spec hg hh).2 N hN
    refine ⟨r, sumOver N fun _ => 0, hr, fun s => ?_⟩
    obtain ⟨rs, hrs, -, rsv⟩ := (se3Compose_spec (h := along h d s) hg hh).2 N hN
    refine ⟨rs, hrs, ?_⟩
    rw [hc, hh, sumTo_mat s1 hHi hHl, inner_mat, inner_mat]
    apply sumOver_quad
    intro b hbN
    have hb := hbN.length_eq
    have lG : (bidx G b).length = G.length := bidx_length (by omega)
    have A0 : ∀ i j, j < 3 → r.val (b ++ [i, j]) = _ := fun i j hj => (rv b i hbN).1 j hj
    have A3 : ∀ i, r.val (b ++ [i, 3]) = _ := fun i => (rv b i hbN).2
    have B0 : ∀ i j, j < 3 → rs.val (b ++ [i, j]) = _ := fun i j hj => (rsv b i hbN).1 j hj
    have B3 : ∀ i, rs.val (b ++ [i, 3]) = _ := fun i => (rsv b i hbN).2
    have C : ∀ l j, j1.val (b ++ [l, j])
        = ∑ q ∈ Finset.range 3, g.val (bidx G b ++ [q, l]) * c.val (b ++ [q, j]) := by
      intro l j
      rw [v1 b l j hb]
      apply Finset.sum_congr rfl
      intro q _
      rw [bidx_self hbN, t4 _ _ _ lG, g2 _ _ _ lG, Nat.add_zero]
    rw [Finset.sum_comm, Finset.sum_comm (s := Finset.range 3) (t := Finset.range 4),
      Finset.sum_comm (s := Finset.range 3) (t := Finset.range 4), Finset.mul_sum, mul_zero, add_zero,
      ← Finset.sum_add_distrib]
    apply Finset.sum_congr rfl
    intro j hj
    have hj4 := Finset.mem_range.mp hj
    rcases Nat.lt_succ_iff_lt_or_eq.mp hj4 with h3 | rfl
    · simp only [Finset.sum_range_succ, Finset.sum_range_zero]
      rw [B0 0 j h3, B0 1 j h3, B0 2 j h3, A0 0 j h3, A0 1 j h3, A0 2 j h3, C, C, C]
      simp only [Finset.sum_range_succ, Finset.sum_range_zero, along_val]
      ring
    · simp only [Finset.sum_range_succ, Finset.sum_range_zero, B3, A3, C, along_val]
      ring

/-! ### `transform` -/

/-- **C118 (`SE3.transform`).** `R p + t` at the broadcast batch index. -/
theorem se3Transform_spec {g t : Tns} {G T : List ℕ} (hg : g.shape = G ++ [3, 4]) (ht : t.shape = T ++ [3]) :
    (bcast G T = none → se3Transform g t = .error .torch) ∧
    ∀ N, bcast G T = some N → ∃ r, se3Transform g t = .ok r ∧ r.shape = N ++ [3] ∧
      ∀ b i, In b N → r.val (b ++ [i])
        = ∑ l ∈ Finset.range 3, g.val (bidx G b ++ [i, l]) * t.val (bidx T b ++ [l]) + g.val (bidx G b ++ [i, 3]) := by
  have tn : t.ndim = T.length + 1 := by simp [Tns.ndim, ht]
  obtain ⟨g1, g2⟩ := cols_shape 0 3 hg
  obtain ⟨g3, g4⟩ := cols_shape 3 1 hg
  obtain ⟨u1, u2⟩ := unsq_shape ht
  have m := matmul_eq g1 u1
  unfold se3Transform
  rw [if_neg (by simp [drop_two hg]), if_neg (by rw [tn]; simp [ht])]
  constructor
  · intro hN
    rw [m.2.1 rfl hN]
  · intro N hN
    obtain ⟨hGl, hTl⟩ := bcast_lengths hN
    obtain ⟨r1, e1, s1, v1⟩ := m.2.2 rfl N hN
    obtain ⟨r2, e2, s2, v2⟩ := (ewise_cols (f := (· + ·)) g3 s1).2 N (bcast_idem hN)
    rw [e1]
    dsimp only
    rw [e2]
    refine ⟨_, rfl, (sq_shape s2).1, fun b i hbN => ?_⟩
    have hb := hbN.length_eq
    have lG : (bidx G b).length = G.length := bidx_length (by omega)
    have lT : (bidx T b).length = T.length := bidx_length (by omega)
    rw [(sq_shape s2).2, v2 b i hb, bidx_self hbN, v1 b i 0 hb, g4 _ _ _ lG, add_comm]
    simp only [g2 _ _ _ lG, u2 _ _ _ lT, Nat.add_zero, Nat.zero_add]

/-- **C118 (gradients of `SE3.transform`).** -/
theorem se3TransformGrad_spec {g t c : Tns} {G T N : List ℕ} (hg : g.shape = G ++ [3, 4]) (ht : t.shape = T ++ [3])
    (hN : bcast G T = some N) (hc : c.shape = N ++ [3]) :
    ∃ jg jt, se3TransformGrad g t c = .ok (jg, jt) ∧ IsGrad (fun x => se3Transform x t) c g jg ∧
      IsGrad (fun x => se3Transform g x) c t jt := by
  obtain ⟨hGl, hTl⟩ := bcast_lengths hN
  obtain ⟨g1, g2⟩ := cols_shape 0 3 hg
  obtain ⟨c1, c2⟩ := unsq_shape hc
  obtain ⟨u1, u2⟩ := unsq_shape ht
  obtain ⟨t1, t2⟩ := mT_shape u1
  obtain ⟨t3, t4⟩ := mT_shape g1
  obtain ⟨a, ea, sa, va⟩ := (matmul_eq c1 t1).2.2 rfl N (bcast_right hN)
  obtain ⟨j1, e1, s1, v1⟩ := (matmul_eq t3 c1).2.2 rfl N (bcast_idem hN)
  obtain ⟨j0, e0, s0, v0⟩ := catLast_ok sa c1
  have hGi : ∀ b, In b N → In (bidx G b) G := fun b hb => bidx_in hN hb
  have hTi : ∀ b, In b N → In (bidx T b) T := fun b hb => bidx_in_right hN hb
  refine ⟨sumTo j0 g.shape, sumTo (sq j1) t.shape, ?_, ⟨rfl, fun d hd => ?_⟩, ⟨rfl, fun d hd => ?_⟩⟩
  · unfold se3TransformGrad
    rw [ea, e1]
    dsimp only
    rw [e0]
  · obtain ⟨r, hr, -, rv⟩ := (se3Transform_spec hg ht).2 N hN
    refine ⟨r, sumOver N fun _ => 0, hr, fun s => ?_⟩
    obtain ⟨rs, hrs, -, rsv⟩ := (se3Transform_spec (g := along g d s) hg ht).2 N hN
    refine ⟨rs, hrs, ?_⟩
    rw [hc, hg, sumTo_mat s0 hGi hGl, inner_vec, inner_vec]
    apply sumOver_quad
    intro b hbN
    have hb := hbN.length_eq
    have lT : (bidx T b).length = T.length := bidx_length (by omega)
    have C0 : ∀ i j, j < 3 → j0.val (b ++ [i, j]) = c.val (b ++ [i]) * t.val (bidx T b ++ [j]) := by
      intro i j hj
      rw [v0 b i j hb, if_pos hj, va b i j hb, Finset.sum_range_one, bidx_self hbN, c2 _ _ _ hb, t2 _ _ _ lT,
        u2 _ _ _ lT]
    have C3 : ∀ i, j0.val (b ++ [i, 3]) = c.val (b ++ [i]) := by
      intro i
      rw [v0 b i 3 hb, if_neg (by omega), c2 _ _ _ hb]
    rw [Finset.mul_sum, mul_zero, add_zero, ← Finset.sum_add_distrib]
    apply Finset.sum_congr rfl
    intro i _
    rw [rv b i hbN, rsv b i hbN]
    simp only [Finset.sum_range_succ, Finset.sum_range_zero, C3, along_val]
    rw [C0 i 0 (by omega), C0 i 1 (by omega), C0 i 2 (by omega)]
    ring
  · obtain ⟨r, hr, -, rv⟩ := (se3Transform_spec hg ht).2 N hN
    refine ⟨r, sumOver N fun _ => 0, hr, fun s => ?_⟩
    obtain ⟨rs, hrs, -, rsv⟩ := (se3Transform_spec (t := along t d s) hg ht).2 N hN
    refine ⟨rs, hrs, ?_⟩
    rw [hc, ht, sumTo_vec (sq_shape s1).1 hTi hTl, inner_vec, inner_vec]
    apply sumOver_quad
    intro b hbN
    have hb := hbN.length_eq
    have lG : (bidx G b).length = G.length := bidx_length (by omega)
    have C : ∀ l, (sq j1).val (b ++ [l]) = ∑ q ∈ Finset.range 3, g.val (bidx G b ++ [q, l]) * c.val (b ++ [q]) := by
      intro l
      rw [(sq_shape s1).2, v1 b l 0 hb]
      apply Finset.sum_congr rfl
      intro q _
      rw [bidx_self hbN, t4 _ _ _ lG, g2 _ _ _ lG, Nat.add_zero, c2 _ _ _ hb]
    have A : ∀ i, r.val (b ++ [i]) = _ := fun i => rv b i hbN
    have B : ∀ i, rs.val (b ++ [i]) = _ := fun i => rsv b i hbN
    simp only [A, B, C]
    simp only [Finset.sum_range_succ, Finset.sum_range_zero, along_val]
    ring

/-! ### `untransform` -/

/-- **C118 (`SO3.untransform`).** `Rᵀ p` at the broadcast batch index. -/
theorem so3Untransform_spec {g t : Tns} {G T : List ℕ} (hg : g.shape = G ++ [3, 3]) (ht : t.shape = T ++ [3]) :
    (bcast G T = none → so3Untransform g t = .error .torch) ∧
    ∀ N, bcast G T = some N → ∃ r, so3Untransform g t = .ok r ∧ r.shape = N ++ [3] ∧
      ∀ b i, In b N → r.val (b ++ [i])
        = ∑ l ∈ Finset.range 3, g.val (bidx G b ++ [l, i]) * t.val (bidx T b ++ [l]) := by
  have tn : t.ndim = T.length + 1 := by simp [Tns.ndim, ht]
  obtain ⟨g1, g2⟩ := mT_shape hg
  obtain ⟨u1, u2⟩ := unsq_shape ht
  have m := matmul_eq g1 u1
  unfold so3Untransform
  rw [if_neg (by simp [drop_two hg]), if_neg (by rw [tn]; simp [ht])]
  constructor
  · intro hN
    rw [m.2.1 rfl hN]
  · intro N hN
    obtain ⟨hGl, hTl⟩ := bcast_lengths hN
    obtain ⟨r1, e1, s1, v1⟩ := m.2.2 rfl N hN
    rw [e1]
    refine ⟨_, rfl, (sq_shape s1).1, fun b i hbN => ?_⟩
    have hb := hbN.length_eq
    have lG : (bidx G b).length = G.length := bidx_length (by omega)
    have lT : (bidx T b).length = T.length := bidx_length (by omega)
    rw [(sq_shape s1).2, v1 b i 0 hb]
    simp only [g2 _ _ _ lG, u2 _ _ _ lT]

/-- **C118 (gradients of `SO3.untransform`).** -/
theorem so3UntransformGrad_spec {g t c : Tns} {G T N : List ℕ} (hg : g.shape = G ++ [3, 3]) (ht : t.shape = T ++ [3])
    (hN : bcast G T = some N) (hc : c.shape = N ++ [3]) :
    ∃ jg jt, so3UntransformGrad g t c = .ok (jg, jt) ∧ IsGrad (fun x => so3Untransform x t) c g jg ∧
      IsGrad (fun x => so3Untransform g x) c t jt := by
  obtain ⟨hGl, hTl⟩ := bcast_lengths hN
  obtain ⟨g1, g2⟩ := cols_shape 0 3 hg
  obtain ⟨c1, c2⟩ := unsq_shape hc
  obtain ⟨u1, u2⟩ := unsq_shape ht
  obtain ⟨t1, t2⟩ := mT_shape c1
  obtain ⟨j0, e0, s0, v0⟩ := (matmul_eq u1 t1).2.2 rfl N (by rw [bcast_comm]; exact bcast_right hN)
  obtain ⟨j1, e1, s1, v1⟩ := (matmul_eq g1 c1).2.2 rfl N (bcast_idem hN)
  have hGi : ∀ b, In b N → In (bidx G b) G := fun b hb => bidx_in hN hb
  have hTi : ∀ b, In b N → In (bidx T b) T := fun b hb => bidx_in_right hN hb
  refine ⟨sumTo j0 g.shape, sumTo (sq j1) t.shape, ?_, ⟨rfl, fun d hd => ?_⟩, ⟨rfl, fun d hd => ?_⟩⟩
  · unfold so3UntransformGrad
    rw [e0, e1]
  · obtain ⟨r, hr, -, rv⟩ := (so3Untransform_spec hg ht).2 N hN
    refine ⟨r, sumOver N fun _ => 0, hr, fun s => ?_⟩
    obtain ⟨rs, hrs, -, rsv⟩ := (so3Untransform_spec (g := along g d s) hg ht).2 N hN
    refine ⟨rs, hrs, ?_⟩
    rw [hc, hg, sumTo_mat s0 hGi hGl, inner_vec, inner_vec]
    apply sumOver_quad
    intro b hbN
    have hb := hbN.length_eq
    have lT : (bidx T b).length = T.length := bidx_length (by omega)
    have C : ∀ i j, j0.val (b ++ [i, j]) = t.val (bidx T b ++ [i]) * c.val (b ++ [j]) := by
      intro i j
      rw [v0 b i j hb, Finset.sum_range_one, bidx_self hbN, t2 _ _ _ hb, c2 _ _ _ hb, u2 _ _ _ lT]
    have A : ∀ i, r.val (b ++ [i]) = _ := fun i => rv b i hbN
    have B : ∀ i, rs.val (b ++ [i]) = _ := fun i => rsv b i hbN
    simp only [A, B, C]
    simp only [Finset.sum_range_succ, Finset.sum_range_zero, along_val]
    ring
  · obtain ⟨r, hr, -, rv⟩ := (so3Untransform_spec hg ht).2 N hN
    refine ⟨r, sumOver N fun _ => 0, hr, fun s => ?_⟩
    obtain ⟨rs, hrs, -, rsv⟩ := (so3Untransform_spec (t := along t d s) hg ht).2 N hN
    refine ⟨rs, hrs, ?_⟩
    rw [hc, ht, sumTo_vec (sq_shape s1).1 hTi hTl, inner_vec, inner_vec]
    apply sumOver_quad
    intro b hbN
    have hb := hbN.length_eq
    have lG : (bidx G b).length = G.length := bidx_length (by omega)
    have C : ∀ l, (sq j1).val (b ++ [l]) = ∑ q ∈ Finset.range 3, g.val (bidx G b ++ [l, q]) * c.val (b ++ [q]) := by
      intro l
      rw [(sq_shape s1).2, v1 b l 0 hb]
      apply Finset.sum_congr rfl
      intro q _
      rw [bidx_self hbN, g2 _ _ _ lG, Nat.add_zero, c2 _ _ _ hb]
    have A : ∀ i, r.val (b ++ [i]) = _ := fun i => rv b i hbN
    have B : ∀ i, rs.val (b ++ [i]) = _ := fun i => rsv b i hbN
    simp only [A, B, C]
    simp only [Finset.sum_range_succ, Finset.sum_range_zero, along_val]
    ring

/-- **C118 (`SE3.untransform`).** `Rᵀ (p - t)` at the broadcast batch index. -/
theorem se3Untransform_spec {g t : Tns} {G T : List ℕ} (hg : g.shape = G ++ [3, 4]) (ht : t.shape = T ++ [3]) :
    (bcast G T = none → se3Untransform g t = .error .torch) ∧
    ∀ N, bcast G T = some N → ∃ r, se3Untransform g t = .ok r ∧ r.shape = N ++ [3] ∧
      ∀ b i, In b N → r.val (b ++ [i])
        = ∑ l ∈ Finset.range 3, g.val (bidx G b ++ [l, i]) * (t.val (bidx T b ++ [l]) - g.val (bidx G b ++ [l, 3])) := by
  have tn : t.ndim = T.length + 1 := by simp [Tns.ndim, ht]
  obtain ⟨g1, g2⟩ := cols_shape 0 3 hg
  obtain ⟨g3, g4⟩ := cols_shape 3 1 hg
  obtain ⟨u1, u2⟩ := unsq_shape ht
  obtain ⟨t1, t2⟩ := mT_shape g1
  have w := ewise_cols (f := (· - ·)) u1 g3
  unfold se3Untransform
  rw [if_neg (by simp [drop_two hg]), if_neg (by rw [tn]; simp [ht])]
  constructor
  · intro hN
    rw [w.1 (by rw [bcast_comm]; exact hN)]
  · intro N hN
    obtain ⟨hGl, hTl⟩ := bcast_lengths hN
    obtain ⟨r1, e1, s1, v1⟩ := w.2 N (by rw [bcast_comm]; exact hN)
    obtain ⟨r2, e2, s2, v2⟩ := (matmul_eq t1 s1).2.2 rfl N (bcast_idem hN)
    rw [e1]
    dsimp only
    rw [e2]
    refine ⟨_, rfl, (sq_shape s2).1, fun b i hbN => ?_⟩
    have hb := hbN.length_eq
    have lG : (bidx G b).length = G.length := bidx_length (by omega)
    have lT : (bidx T b).length = T.length := bidx_length (by omega)
    rw [(sq_shape s2).2, v2 b i 0 hb]
    apply Finset.sum_congr rfl
    intro q _
    rw [bidx_self hbN, v1 b q hb, t2 _ _ _ lG, g2 _ _ _ lG, g4 _ _ _ lG, u2 _ _ _ lT]
    rfl

/-- Broadcasting that keeps the number of entries only adds dimensions of size 1 in front. -/
theorem bcastRev_prod {X Y Z : List ℕ} (h : bcastRev X Y = some Z) (hpos : ∀ z ∈ Z, 0 < z) :
    0 < Y.prod ∧ Y.prod ≤ Z.prod ∧ (Z.prod = Y.prod → Z = Y ++ List.replicate (Z.length - Y.length) 1) := by
  induction X generalizing Y Z with
  | nil =>
    simp only [bcastRev, Option.some.injEq] at h
    subst h
    exact ⟨List.prod_pos hpos, le_refl _, fun _ => by simp⟩
  | cons x X ih =>
    cases Y with
    | nil =>
      simp only [bcastRev, Option.some.injEq] at h
      subst h
      have hp : 0 < (x :: X).prod := List.prod_pos hpos
      refine ⟨by simp, hp, fun he => ?_⟩
      simp only [List.nil_append, List.length_nil, Nat.sub_zero]
      rw [List.eq_replicate_iff]
      refine ⟨rfl, fun z hz => ?_⟩
      have := List.dvd_prod hz
      rw [he] at this
      simpa using this
    | cons y Y =>
      simp only [bcastRev] at h
      split at h
      · rename_i d ds h1 h2
        cases h
        obtain ⟨p1, p2, p3⟩ := ih h2 fun z hz => hpos z (by simp [hz])
        have hd : 0 < d := hpos d (by simp)
        have hy : y = d ∨ y = 1 := by
          unfold bcastDim at h1
          split at h1
          · cases h1; left; omega
          · split at h1
            · cases h1; left; rfl
            · split at h1
              · right; assumption
              · cases h1
        have hyd : y ≤ d ∧ 0 < y := by rcases hy with h | h <;> omega
        simp only [List.prod_cons]
        refine ⟨Nat.mul_pos hyd.2 p1, Nat.mul_le_mul hyd.1 p2, fun he => ?_⟩
        have e1 : d = y := by
          rcases Nat.lt_or_ge y d with hlt | hge
          · have : y * Y.prod < d * ds.prod := Nat.mul_lt_mul_of_lt_of_le hlt p2 (lt_of_lt_of_le p1 p2)
            omega
          · omega
        have e2 : ds.prod = Y.prod := by
          rw [e1] at he
          exact Nat.eq_of_mul_eq_mul_left hyd.2 he
        rw [p3 e2, e1]
        simp
      · cases h

/-- The index into the points for an index into as many broadcast points. -/
theorem bidx_prod {G T N b : List ℕ} (h : bcast G T = some N) (hp : N.prod = T.prod) (hb : In b N) :
    List.replicate (N.length - T.length) 0 ++ bidx T b = b := by
  have hpos : ∀ z ∈ N.reverse, 0 < z := by
    intro z hz
    obtain ⟨i, hi, rfl⟩ := List.getElem_of_mem (List.mem_reverse.mp hz)
    have := (List.forall₂_iff_get.mp hb).2 i (by rw [hb.length_eq]; exact hi) hi
    simp only [List.get_eq_getElem] at this
    omega
  have hr : bcastRev G.reverse T.reverse = some N.reverse := by
    simp only [bcast, Option.map_eq_some_iff] at h
    obtain ⟨z, hz, rfl⟩ := h
    simpa using hz
  have := (bcastRev_prod hr hpos).2.2 (by simpa using hp)
  have hN : N = List.replicate (N.length - T.length) 1 ++ T := by
    have := congrArg List.reverse this
    simpa using this
  rw [hN] at hb
  obtain ⟨x, y, rfl, hx, hy⟩ := In.split hb
  have hx0 : x = List.replicate (N.length - T.length) 0 := by
    rw [List.eq_replicate_iff]
    refine ⟨by rw [hx.length_eq]; simp, fun a ha => ?_⟩
    obtain ⟨i, hi, rfl⟩ := List.getElem_of_mem ha
    have := (List.forall₂_iff_get.mp hx).2 i hi (by rw [← hx.length_eq]; exact hi)
    simp at this
    omega
  rw [bidx_skip _ _ (by rw [hy.length_eq]), bidx_self hy, hx0]

/-- **C118 (gradients of `SE3.untransform`), `_partial`:** they are right whenever broadcasting keeps the
number of points.  Missing: all other cases, where the backward pass raises (`se3UntransformGrad_raises`). -/
theorem se3UntransformGrad_partial {g t c : Tns} {G T N : List ℕ} (hg : g.shape = G ++ [3, 4]) (ht : t.shape = T ++ [3])
    (hN : bcast G T = some N) (hp : N.prod = T.prod) (hc : c.shape = N ++ [3]) :
    ∃ jg jt, se3UntransformGrad g t c = .ok (jg, jt) ∧ IsGrad (fun x => se3Untransform x t) c g jg ∧
      IsGrad (fun x => se3Untransform g x) c t jt := by
  obtain ⟨hGl, hTl⟩ := bcast_lengths hN
  obtain ⟨g1, g2⟩ := cols_shape 0 3 hg
  obtain ⟨g3, g4⟩ := cols_shape 3 1 hg
  obtain ⟨c1, c2⟩ := unsq_shape hc
  obtain ⟨u1, u2⟩ := unsq_shape ht
  obtain ⟨t1, t2⟩ := mT_shape c1
  obtain ⟨m, em, sm, vm⟩ := (ewise_cols (f := (· - ·)) u1 g3).2 N (by rw [bcast_comm]; exact hN)
  obtain ⟨j1, e1, s1, v1⟩ := (matmul_eq g1 c1).2.2 rfl N (bcast_idem hN)
  obtain ⟨v, ev, sv, vv⟩ : ∃ v, viewAs m (t.shape ++ [1]) = .ok v ∧ v.shape = T ++ [3, 1] ∧
      ∀ idx, v.val idx = m.val (List.replicate (N.length - T.length) 0 ++ idx) := by
    unfold viewAs
    rw [if_neg (by rw [sm, ht]; simpa using hp)]
    refine ⟨_, rfl, by rw [ht]; simp, fun idx => ?_⟩
    have : m.shape.length - (t.shape ++ [1]).length = N.length - T.length := by
      rw [sm, ht]; simp only [List.length_append, List.length_cons, List.length_nil]; omega
    rw [this]
  obtain ⟨a, ea, sa, va⟩ := (matmul_eq sv t1).2.2 rfl N (by rw [bcast_comm]; exact bcast_right hN)
  have sn : (negT j1).shape = N ++ [3, 1] := s1
  obtain ⟨j0, e0, s0, v0⟩ := catLast_ok sa sn
  have hGi : ∀ b, In b N → In (bidx G b) G := fun b hb => bidx_in hN hb
  have hTi : ∀ b, In b N → In (bidx T b) T := fun b hb => bidx_in_right hN hb
  refine ⟨sumTo j0 g.shape, sumTo (sq j1) t.shape, ?_, ⟨rfl, fun d hd => ?_⟩, ⟨rfl, fun d hd => ?_⟩⟩
  · unfold se3UntransformGrad
    rw [em]
    dsimp only
    rw [e1, ev]
    dsimp only
    rw [ea]
    dsimp only
    rw [e0]
  · obtain ⟨r, hr, -, rv⟩ := (se3Untransform_spec hg ht).2 N hN
    refine ⟨r, sumOver N fun b => ∑ i ∈ Finset.range 3, c.val (b ++ [i])
      * ∑ l ∈ Finset.range 3, d.val (bidx G b ++ [l, i]) * (- d.val (bidx G b ++ [l, 3])), hr, fun s => ?_⟩
    obtain ⟨rs, hrs, -, rsv⟩ := (se3Untransform_spec (g := along g d s) hg ht).2 N hN
    refine ⟨rs, hrs, ?_⟩
    rw [hc, hg, sumTo_mat s0 hGi hGl, inner_vec, inner_vec]
    apply sumOver_quad
    intro b hbN
    have hb := hbN.length_eq
    have lG : (bidx G b).length = G.length := bidx_length (by omega)
    have lT : (bidx T b).length = T.length := bidx_length (by omega)
    have C0 : ∀ i j, j < 3 → j0.val (b ++ [i, j])
        = (t.val (bidx T b ++ [i]) - g.val (bidx G b ++ [i, 3])) * c.val (b ++ [j]) := by
      intro i j hj
      rw [v0 b i j hb, if_pos hj, va b i j hb, Finset.sum_range_one, bidx_self hbN, t2 _ _ _ hb, c2 _ _ _ hb,
        vv, ← List.append_assoc, bidx_prod hN hp hbN, vm b i hb, u2 _ _ _ lT, g4 _ _ _ lG]
    have C3 : ∀ i, j0.val (b ++ [i, 3]) = -∑ q ∈ Finset.range 3, g.val (bidx G b ++ [i, q]) * c.val (b ++ [q]) := by
      intro i
      rw [v0 b i 3 hb, if_neg (by omega)]
      show -j1.val _ = _
      rw [v1 b i _ hb]
      congr 1
      apply Finset.sum_congr rfl
      intro q _
      rw [bidx_self hbN, g2 _ _ _ lG, Nat.add_zero, c2 _ _ _ hb]
    have A : ∀ i, r.val (b ++ [i]) = _ := fun i => rv b i hbN
    have B : ∀ i, rs.val (b ++ [i]) = _ := fun i => rsv b i hbN
    simp only [A, B]
    have J : (∑ i ∈ Finset.range 3, ∑ k ∈ Finset.range 4, j0.val (b ++ [i, k]) * d.val (bidx G b ++ [i, k]))
        = ∑ i ∈ Finset.range 3, ((∑ k ∈ Finset.range 3, (t.val (bidx T b ++ [i]) - g.val (bidx G b ++ [i, 3])) * c.val (b ++ [k])
            * d.val (bidx G b ++ [i, k]))
          + -(∑ q ∈ Finset.range 3, g.val (bidx G b ++ [i, q]) * c.val (b ++ [q])) * d.val (bidx G b ++ [i, 3])) := by
      apply Finset.sum_congr rfl
      intro i _
      rw [Finset.sum_range_succ _ 3, C3]
      congr 1
      apply Finset.sum_congr rfl
      intro k hk
      rw [C0 i k (Finset.mem_range.mp hk)]
    rw [J]
    simp only [Finset.sum_range_succ, Finset.sum_range_zero, along_val]
    ring
  · obtain ⟨r, hr, -, rv⟩ := (se3Untransform_spec hg ht).2 N hN
    refine ⟨r, sumOver N fun _ => 0, hr, fun s => ?_⟩
    obtain ⟨rs, hrs, -, rsv⟩ := (se3Untransform_spec (t := along t d s) hg ht).2 N hN
    refine ⟨rs, hrs, ?_⟩
    rw [hc, ht, sumTo_vec (sq_shape s1).1 hTi hTl, inner_vec, inner_vec]
    apply sumOver_quad
    intro b hbN
    have hb := hbN.length_eq
    have lG : (bidx G b).length = G.length := bidx_length (by omega)
    have lT : (bidx T b).length = T.length := bidx_length (by omega)
    have C : ∀ l, (sq j1).val (b ++ [l]) = ∑ q ∈ Finset.range 3, g.val (bidx G b ++ [l, q]) * c.val (b ++ [q]) := by
      intro l
      rw [(sq_shape s1).2, v1 b l 0 hb]
      apply Finset.sum_congr rfl
      intro q _
      rw [bidx_self hbN, g2 _ _ _ lG, Nat.add_zero, c2 _ _ _ hb]
    have A : ∀ i, r.val (b ++ [i]) = _ := fun i => rv b i hbN
    have B : ∀ i, rs.val (b ++ [i]) = _ := fun i => rsv b i hbN
    simp only [A, B, C]
    simp only [Finset.sum_range_succ, Finset.sum_range_zero, along_val]
    ring

/-- One pose in a batch and one point alone: the same number of points. -/
example : bcast [1] [] = some [1] ∧ [1].prod = ([] : List ℕ).prod := by decide

/-- **C118 (defect).** Whenever the poses broadcast the points to more of them, `SE3.untransform` returns, but its
backward pass raises. -/
theorem se3UntransformGrad_raises {g t c : Tns} {G T N : List ℕ} (hg : g.shape = G ++ [3, 4]) (ht : t.shape = T ++ [3])
    (hN : bcast G T = some N) (hp : N.prod ≠ T.prod) (hc : c.shape = N ++ [3]) :
    (∃ r, se3Untransform g t = .ok r) ∧ se3UntransformGrad g t c = .error .torch := by
  obtain ⟨r, hr, -⟩ := (se3Untransform_spec hg ht).2 N hN
  refine ⟨⟨r, hr⟩, ?_⟩
  obtain ⟨g1, g2⟩ := cols_shape 0 3 hg
  obtain ⟨g3, g4⟩ := cols_shape 3 1 hg
  obtain ⟨c1, c2⟩ := unsq_shape hc
  obtain ⟨u1, u2⟩ := unsq_shape ht
  obtain ⟨m, em, sm, vm⟩ := (ewise_cols (f := (· - ·)) u1 g3).2 N (by rw [bcast_comm]; exact hN)
  obtain ⟨j1, e1, s1, v1⟩ := (matmul_eq g1 c1).2.2 rfl N (bcast_idem hN)
  have ev : viewAs m (t.shape ++ [1]) = .error .torch := by
    unfold viewAs
    rw [if_pos]
    rw [sm, ht]
    simpa using hp
  unfold se3UntransformGrad
  rw [em]
  dsimp only
  rw [e1, ev]

/-- A batch of 5 poses and one point. -/
example : bcast [5] [] = some [5] ∧ [5].prod ≠ ([] : List ℕ).prod := by decide

end Verif.Lie.Batch
