import Mathlib.Data.Real.Basic
import Mathlib.Tactic

/-!
# Model and properties of `ManifoldGaussian` objects (C66)

`theseus/optimizer/manifold_gaussian.py` L14-103.  Variables are objects on a heap (the Gaussian
keeps the sequence of variables it is given); exceptions are values, returned with the state they
leave behind.
-/

namespace Verif.Gauss.State

/-! ## Model -/

/-- A tensor of a variable: batch size, the other dimensions, dtype, device and contents
(core/variable.py L19-26, L81-95). -/
structure Ten where
  batch : ℕ
  dims : List ℕ
  dtype : ℕ
  device : ℕ
  val : ℕ → ℝ

/-- A precision tensor: `shape`, dtype, device and contents (manifold_gaussian.py L85-103). -/
structure PTen where
  shape : ℕ × ℕ × ℕ
  dtype : ℕ
  device : ℕ
  val : ℕ → ℕ → ℕ → ℝ

/-- The tensors of all variables (core/variable.py L26). -/
abbrev Heap := ℕ → Ten

/-- A `ManifoldGaussian`: its variables, `_dof` and `precision` (manifold_gaussian.py L29-43). -/
structure Obj where
  mean : List ℕ
  dof : ℕ
  prec : PTen

/-- The exceptions (manifold_gaussian.py L76-101): all are `ValueError`s except the `IndexError` of an empty sequence. -/
inductive Err where
  | length | meanShape | meanDtype | shape | dtype | device | symmetric | index
deriving DecidableEq

/-- `Variable.update` with another variable (core/variable.py L42-72; without mask). -/
def varUpdate (h : Heap) (self other : ℕ) : Except Err Heap :=
  if (h other).dims ≠ (h self).dims then .error .meanShape
  else if (h other).dtype ≠ (h self).dtype then .error .meanDtype
  else .ok (Function.update h self (h other))

/-- The loop over the means (manifold_gaussian.py L82-83): stops at the first failure, keeping
what was done. -/
def updMeans (h : Heap) : List ℕ → List ℕ → Heap × Option Err
  | s :: ss, m :: ms =>
    match varUpdate h s m with
    | .ok h' => updMeans h' ss ms
    | .error e => (h, some e)
  | _, _ => (h, none)

/-- `torch.allclose(precision, precision.transpose(1, 2))` (manifold_gaussian.py L100). -/
def PTen.AllcloseSymm (p : PTen) : Prop :=
  ∀ b < p.shape.1, ∀ i < p.shape.2.1, ∀ j < p.shape.2.2,
    |p.val b i j - p.val b j i| ≤ 1e-8 + 1e-5 * |p.val b j i|

/-- The checks of the precision (manifold_gaussian.py L85-101), after the means were updated. -/
noncomputable def checkPrec (h : Heap) (dof : ℕ) (mean self : List ℕ) (p : PTen) : Option Err :=
  match mean, self with
  | m :: _, s :: _ =>
    if p.shape ≠ ((h m).batch, dof, dof) then some .shape
    else if p.dtype ≠ (h s).dtype then some .dtype
    else if p.device ≠ (h s).device then some .device
    else open Classical in if p.AllcloseSymm then none else some .symmetric
  | _, _ => some .index

/-- `ManifoldGaussian.update` (manifold_gaussian.py L71-103). -/
noncomputable def update (h : Heap) (g : Obj) (mean : List ℕ) (p : PTen) :
    Heap × Obj × Option Err :=
  if mean.length ≠ g.mean.length then (h, g, some .length)
  else
    match updMeans h g.mean mean with
    | (h', some e) => (h', g, some e)
    | (h', none) =>
      match checkPrec h' g.dof mean g.mean p with
      | some e => (h', g, some e)
      | none => (h', { g with prec := p }, none)

/-- The constructor (manifold_gaussian.py L17-43), given the degrees of freedom of the variables;
the default precision is the identity.  `none` for the object: it raised. -/
noncomputable def construct (h : Heap) (dofs : ℕ → ℕ) (mean : List ℕ) (p : Option PTen) :
    Heap × Except Err Obj :=
  let dof := (mean.map dofs).sum
  match mean, p with
  | [], none => (h, .error .index)
  | m :: ms, none =>
    let eye : PTen := ⟨((h m).batch, dof, dof), (h m).dtype, (h m).device,
      fun _ i j => if i = j then 1 else 0⟩
    match update h ⟨m :: ms, dof, eye⟩ (m :: ms) eye with
    | (h', g, none) => (h', .ok g)
    | (h', _, some e) => (h', .error e)
  | mean, some p =>
    match update h ⟨mean, dof, p⟩ mean p with
    | (h', g, none) => (h', .ok g)
    | (h', _, some e) => (h', .error e)

/-! ## Specification -/

/-- The object is consistent: the precision is a batch of matrices of size `dof`, symmetric up to
`allclose`'s tolerance, with the batch size, dtype and device of the first mean. -/
structure Consistent (h : Heap) (g : Obj) : Prop where
  symm : ∀ b < g.prec.shape.1, ∀ i < g.dof, ∀ j < g.dof,
    |g.prec.val b i j - g.prec.val b j i| ≤ 1e-8 + 1e-5 * |g.prec.val b j i|
  size : g.prec.shape.2 = (g.dof, g.dof)
  batch : ∀ m ∈ g.mean.head?, g.prec.shape.1 = (h m).batch
  dtype : ∀ m ∈ g.mean.head?, g.prec.dtype = (h m).dtype
  device : ∀ m ∈ g.mean.head?, g.prec.device = (h m).device

/-- The part that only concerns the object's own attributes. -/
def SymmSized (g : Obj) : Prop :=
  g.prec.shape.2 = (g.dof, g.dof) ∧ ∀ b < g.prec.shape.1, ∀ i < g.dof, ∀ j < g.dof,
    |g.prec.val b i j - g.prec.val b j i| ≤ 1e-8 + 1e-5 * |g.prec.val b j i|

/-! ## Lemmas -/

theorem varUpdate_dims {h h' : Heap} {s m : ℕ} (e : varUpdate h s m = .ok h') :
    h' = Function.update h s (h m) ∧ (h m).dims = (h s).dims ∧ (h m).dtype = (h s).dtype := by
  unfold varUpdate at e
  split_ifs at e with h1 h2
  simp only [Except.ok.injEq] at e
  exact ⟨e.symm, by simpa using h1, by simpa using h2⟩

theorem varUpdate_self (h : Heap) (m : ℕ) : varUpdate h m m = .ok h := by
  simp [varUpdate]

theorem updMeans_self (h : Heap) (ms : List ℕ) : updMeans h ms ms = (h, none) := by
  induction ms with
  | nil => rfl
  | cons m ms ih => simp [updMeans, varUpdate_self, ih]

/-- Variables that are not means of the Gaussian are not touched. -/
theorem updMeans_frame (h : Heap) (ss ms : List ℕ) (x : ℕ) (hx : x ∉ ss) :
    (updMeans h ss ms).1 x = h x := by
  induction ss generalizing h ms with
  | nil => rfl
  | cons s ss ih =>
    cases ms with
    | nil => rfl
    | cons m ms =>
      simp only [updMeans]
      cases hv : varUpdate h s m with
      | error e => rfl
      | ok h' =>
        simp only
        rw [ih h' ms (fun hc => hx (List.mem_cons_of_mem _ hc)), (varUpdate_dims hv).1,
          Function.update_of_ne (fun e => hx (by simp [e]))]

/-- The dtype and the dimensions of the variables never change. -/
theorem updMeans_dims (h : Heap) (ss ms : List ℕ) (x : ℕ) :
    ((updMeans h ss ms).1 x).dims = (h x).dims ∧ ((updMeans h ss ms).1 x).dtype = (h x).dtype := by
  induction ss generalizing h ms with
  | nil => exact ⟨rfl, rfl⟩
  | cons s ss ih =>
    cases ms with
    | nil => exact ⟨rfl, rfl⟩
    | cons m ms =>
      simp only [updMeans]
      cases hv : varUpdate h s m with
      | error e => exact ⟨rfl, rfl⟩
      | ok h' =>
        obtain ⟨e1, e2, e3⟩ := varUpdate_dims hv
        simp only
        rw [(ih h' ms).1, (ih h' ms).2, e1]
        by_cases hx : x = s
        · subst hx; simp [e2, e3]
        · simp [Function.update_of_ne hx]

/-- The means take the values of the given variables, which are other variables. -/
theorem updMeans_values (h : Heap) (ss ms : List ℕ) (hn : ss.Nodup) (hd : ∀ m ∈ ms, m ∉ ss)
    (ok : (updMeans h ss ms).2 = none) :
    ∀ p ∈ ss.zip ms, (updMeans h ss ms).1 p.1 = h p.2 := by
  induction ss generalizing h ms with
  | nil => simp
  | cons s ss ih =>
    cases ms with
    | nil => simp
    | cons m ms =>
      simp only [updMeans] at ok ⊢
      cases hv : varUpdate h s m with
      | error e => simp [hv] at ok
      | ok h' =>
        obtain ⟨e1, -, -⟩ := varUpdate_dims hv
        simp only [hv] at ok ⊢
        intro p hp
        rw [List.zip_cons_cons, List.mem_cons] at hp
        have hns := List.nodup_cons.mp hn
        rcases hp with rfl | hp
        · rw [updMeans_frame _ _ _ _ hns.1, e1]; simp
        · rw [ih h' ms hns.2 (fun x hx hc => hd x (List.mem_cons_of_mem _ hx)
            (List.mem_cons_of_mem _ hc)) ok p hp, e1]
          refine Function.update_of_ne (fun hc => ?_) _ _
          exact hd p.2 (List.mem_cons_of_mem _ (List.of_mem_zip hp).2) (by simp [hc])

theorem checkPrec_none {h : Heap} {dof : ℕ} {mean self : List ℕ} {p : PTen}
    (e : checkPrec h dof mean self p = none) :
    ∃ m ms s ss, mean = m :: ms ∧ self = s :: ss ∧ p.shape = ((h m).batch, dof, dof) ∧
      p.dtype = (h s).dtype ∧ p.device = (h s).device ∧ p.AllcloseSymm := by
  match mean, self with
  | [], _ => simp [checkPrec] at e
  | _ :: _, [] => simp [checkPrec] at e
  | m :: ms, s :: ss =>
    simp only [checkPrec] at e
    split_ifs at e with h1 h2 h3 h4
    exact ⟨m, ms, s, ss, rfl, rfl, by simpa using h1, by simpa using h2, by simpa using h3, h4⟩

theorem symm_of {g : Obj} {p : PTen} {b : ℕ} (hs : p.shape = (b, g.dof, g.dof))
    (ha : p.AllcloseSymm) : SymmSized { g with prec := p } := by
  refine ⟨by simp [hs], fun b' hb i hi j hj => ha b' hb i ?_ j ?_⟩
  · rw [hs]; exact hi
  · rw [hs]; exact hj

/-! ## The theorems -/

/-- A successful update: every mean has taken the given value, the precision is the given one, no
other variable changed, and the object is consistent.  (For means distinct from each other and from
the given variables; see `update_permuted` for why.) -/
theorem update_ok (h : Heap) (g : Obj) (mean : List ℕ) (p : PTen) (hn : g.mean.Nodup)
    (hd : ∀ m ∈ mean, m ∉ g.mean) (ok : (update h g mean p).2.2 = none) :
    let h' := (update h g mean p).1
    let g' := (update h g mean p).2.1
    g'.mean = g.mean ∧ g'.dof = g.dof ∧ g'.prec = p ∧ mean.length = g.mean.length ∧
    (∀ q ∈ g.mean.zip mean, h' q.1 = h q.2) ∧ (∀ x, x ∉ g.mean → h' x = h x) ∧
    Consistent h' g' := by
  unfold update at ok ⊢
  split_ifs at ok ⊢ with hl
  rcases hu : updMeans h g.mean mean with ⟨h', _ | e⟩
  · simp only [hu] at ok ⊢
    cases hc : checkPrec h' g.dof mean g.mean p with
    | some e => simp [hc] at ok
    | none =>
      simp only
      obtain ⟨m, ms, s, ss, e1, e2, hs, ht, hv, ha⟩ := checkPrec_none hc
      have hvals := updMeans_values h g.mean mean hn hd (by rw [hu])
      have hfr := fun x hx => updMeans_frame h g.mean mean x hx
      simp only [hu] at hvals hfr
      obtain ⟨hsz, hsy⟩ := symm_of (g := g) hs ha
      refine ⟨trivial, trivial, trivial, by simpa using hl, hvals, hfr, hsy, hsz, ?_, ?_, ?_⟩
      · intro x hx
        simp only [e2, List.head?_cons, Option.mem_def, Option.some.injEq] at hx
        subst hx
        have h1 : h' s = h m := hvals (s, m) (by rw [e1, e2]; simp)
        have h2 : h' m = h m := hfr m (hd m (by simp [e1]))
        simp [hs, h1, h2]
      · intro x hx
        simp only [e2, List.head?_cons, Option.mem_def, Option.some.injEq] at hx
        subst hx; exact ht
      · intro x hx
        simp only [e2, List.head?_cons, Option.mem_def, Option.some.injEq] at hx
        subst hx; exact hv
  · simp [hu] at ok

/-- A constructor that does not raise keeps the variables it is given, changes no variable, and
yields a consistent object with `dof` the sum of the degrees of freedom; without a precision it
never raises on a non-empty sequence and the precision is the identity. -/
theorem construct_spec (h : Heap) (dofs : ℕ → ℕ) (mean : List ℕ) (p : Option PTen) :
    (∀ h' g, construct h dofs mean p = (h', .ok g) →
      h' = h ∧ g.mean = mean ∧ g.dof = (mean.map dofs).sum ∧ (∀ q, p = some q → g.prec = q) ∧
      Consistent h g) ∧
    (mean ≠ [] → p = none → ∃ g, construct h dofs mean p = (h, .ok g) ∧
      ∀ b i j, g.prec.val b i j = if i = j then 1 else 0) := by
  have key : ∀ (q : PTen), ∀ dof, ∀ h' g, update h ⟨mean, dof, q⟩ mean q = (h', g, none) →
      h' = h ∧ g = ⟨mean, dof, q⟩ ∧ Consistent h g := by
    intro q dof h' g hu
    simp only [update, ne_eq, not_true_eq_false, if_false, updMeans_self] at hu
    cases hc : checkPrec h dof mean mean q with
    | some e => simp [hc] at hu
    | none =>
      simp only [hc, Prod.mk.injEq, and_true] at hu
      obtain ⟨rfl, rfl⟩ := hu
      obtain ⟨m, ms, s, ss, e1, e2, hs, ht, hv, ha⟩ := checkPrec_none hc
      have hms : m = s := by rw [e1] at e2; exact (List.cons.inj e2).1
      subst hms
      obtain ⟨hsz, hsy⟩ := symm_of (g := ⟨mean, dof, q⟩) hs ha
      refine ⟨rfl, rfl, hsy, hsz, ?_, ?_, ?_⟩ <;>
      · intro x hx
        simp only [e1, List.head?_cons, Option.mem_def, Option.some.injEq] at hx
        subst hx
        first | exact ht | exact hv | simp [hs]
  constructor
  · intro h' g hc
    cases p with
    | none =>
      cases mean with
      | nil => simp [construct] at hc
      | cons m ms =>
        simp only [construct] at hc
        split at hc
        · next h2 g2 hu =>
          simp only [Prod.mk.injEq, Except.ok.injEq] at hc
          obtain ⟨rfl, rfl⟩ := hc
          obtain ⟨a, b, c⟩ := key _ _ _ _ hu
          exact ⟨a, by rw [b], by rw [b], by simp, c⟩
        · simp at hc
    | some q =>
      have hc' : (match update h ⟨mean, (mean.map dofs).sum, q⟩ mean q with
        | (h', g, none) => (h', Except.ok g)
        | (h', _, some e) => (h', .error e)) = (h', .ok g) := by
        cases mean <;> exact hc
      split at hc'
      · next h2 g2 hu =>
        simp only [Prod.mk.injEq, Except.ok.injEq] at hc'
        obtain ⟨rfl, rfl⟩ := hc'
        obtain ⟨a, b, c⟩ := key _ _ _ _ hu
        exact ⟨a, by rw [b], by rw [b], by rintro _ ⟨⟩; rw [b], c⟩
      · simp at hc'
  · rintro hne rfl
    cases mean with
    | nil => exact absurd rfl hne
    | cons m ms =>
      refine ⟨⟨m :: ms, ((m :: ms).map dofs).sum, ⟨((h m).batch, ((m :: ms).map dofs).sum,
        ((m :: ms).map dofs).sum), (h m).dtype, (h m).device,
        fun _ i j => if i = j then 1 else 0⟩⟩, ?_, fun _ _ _ => rfl⟩
      have hsy : PTen.AllcloseSymm ⟨((h m).batch, ((m :: ms).map dofs).sum,
          ((m :: ms).map dofs).sum), (h m).dtype, (h m).device,
          fun _ i j => if i = j then 1 else 0⟩ := by
        intro b _ i _ j _
        by_cases e : i = j
        · subst e; simp; norm_num
        · simp [e, Ne.symm e]; norm_num
      simp only [construct, update, ne_eq, not_true_eq_false, if_false, updMeans_self, checkPrec,
        hsy, if_true]

/-- The operations of a history: updates with arbitrary arguments, and arbitrary changes of the
variables by the rest of the program. -/
inductive Op where
  | upd (mean : List ℕ) (p : PTen)
  | write (x : ℕ) (t : Ten)

/-- Running a history; exceptions are caught by the caller. -/
noncomputable def run : Heap × Obj → List Op → Heap × Obj
  | s, [] => s
  | (h, g), .upd mean p :: ops => run ((update h g mean p).1, (update h g mean p).2.1) ops
  | (h, g), .write x t :: ops => run (Function.update h x t, g) ops

/-- Along every history of updates, successful or not, the precision stays a batch of symmetric
matrices of the object's `dof`, and the object keeps its variables. -/
theorem precision_invariant (h : Heap) (dofs : ℕ → ℕ) (mean : List ℕ) (p : Option PTen) (h0 : Heap)
    (g0 : Obj) (hc : construct h dofs mean p = (h0, .ok g0)) (ops : List Op) :
    SymmSized (run (h0, g0) ops).2 ∧ (run (h0, g0) ops).2.mean = mean ∧
      (run (h0, g0) ops).2.dof = (mean.map dofs).sum := by
  obtain ⟨z, a, b, y, c⟩ := (construct_spec h dofs mean p).1 h0 g0 hc
  have hs : SymmSized g0 := ⟨c.size, c.symm⟩
  clear c hc z y
  induction ops generalizing h0 g0 with
  | nil => exact ⟨hs, a, b⟩
  | cons o ops ih =>
    cases o with
    | write x t => exact ih _ _ a b hs
    | upd m q =>
      simp only [run]
      have hg : (update h0 g0 m q).2.1 = g0 ∨
          ∃ b, q.shape = (b, g0.dof, g0.dof) ∧ q.AllcloseSymm ∧
            (update h0 g0 m q).2.1 = { g0 with prec := q } := by
        unfold update
        split_ifs
        · exact Or.inl rfl
        · rcases hu : updMeans h0 g0.mean m with ⟨h', _ | e⟩
          · simp only
            cases hk : checkPrec h' g0.dof m g0.mean q with
            | some e => exact Or.inl rfl
            | none =>
              obtain ⟨_, _, _, _, _, _, hsh, _, _, ha⟩ := checkPrec_none hk
              exact Or.inr ⟨_, hsh, ha, rfl⟩
          · exact Or.inl rfl
      rcases hg with hg | ⟨b', h1, h2, hg⟩
      · rw [hg]; exact ih _ _ a b hs
      · rw [hg]
        exact ih _ _ a b (symm_of h1 h2)

/-- What a failing update leaves behind: the precision always stays; nothing changes at all if the
number of means is wrong or the first mean is refused; and if it is the precision that is refused,
**all the means have been updated**. -/
theorem update_fail (h : Heap) (g : Obj) (mean : List ℕ) (p : PTen) (e : Err)
    (hf : (update h g mean p).2.2 = some e) :
    (update h g mean p).2.1 = g ∧
    (e = .length → (update h g mean p).1 = h) ∧
    (e = .shape ∨ e = .dtype ∨ e = .device ∨ e = .symmetric →
      (update h g mean p).1 = (updMeans h g.mean mean).1 ∧ (updMeans h g.mean mean).2 = none) := by
  unfold update at hf ⊢
  split_ifs at hf ⊢ with hl
  · simp only [Option.some.injEq] at hf
    subst hf
    simp
  · rcases hu : updMeans h g.mean mean with ⟨h', _ | e'⟩
    · simp only [hu] at hf ⊢
      cases hk : checkPrec h' g.dof mean g.mean p with
      | none => simp [hk] at hf
      | some e2 =>
        simp only [hk, Option.some.injEq] at hf
        subst hf
        refine ⟨rfl, ?_, fun _ => ⟨by simp, trivial⟩⟩
        intro he
        exfalso
        revert hk
        rw [he]
        unfold checkPrec
        split
        · split_ifs <;> simp
        · simp
    · simp only [hu, Option.some.injEq] at hf
      subst hf
      have hne : e' = .meanShape ∨ e' = .meanDtype := by
        have : ∀ (ss ms : List ℕ) (h : Heap) e, (updMeans h ss ms).2 = some e →
            e = .meanShape ∨ e = .meanDtype := by
          intro ss
          induction ss with
          | nil => intro ms h e hh; simp [updMeans] at hh
          | cons s ss ih =>
            intro ms h e hh
            cases ms with
            | nil => simp [updMeans] at hh
            | cons m ms =>
              simp only [updMeans] at hh
              cases hv : varUpdate h s m with
              | ok h2 => exact ih ms h2 e (by simpa [hv] using hh)
              | error e2 =>
                simp only [hv, Option.some.injEq] at hh
                subst hh
                unfold varUpdate at hv
                split_ifs at hv <;> simp_all
        exact this g.mean mean h e' (by rw [hu])
      rcases hne with rfl | rfl <;> simp

/-- A 1-dimensional Gaussian over variable `0`, to be updated from variable `1` with batch `n`. -/
noncomputable def exHeap (n : ℕ) : Heap :=
  fun x => if x = 0 then ⟨1, [1], 64, 0, fun _ => 0⟩ else ⟨n, [1], 64, 0, fun _ => 7⟩

/-- A one-by-one precision for a batch of `b`. -/
noncomputable def exPrec (b : ℕ) : PTen := ⟨(b, 1, 1), 64, 0, fun _ _ _ => 2⟩

/-- A legal Gaussian over variable `0`. -/
noncomputable def exGauss : Obj := ⟨[0], 1, exPrec 1⟩

/-- The code violates the property: `update` changes the means before it checks the precision, so a
refused update leaves the object with the new means and the old precision — here with a batch of
two means and a precision for a batch of one, although it was consistent before. -/
theorem update_not_atomic :
    construct (exHeap 2) (fun _ => 1) [0] (some (exPrec 1)) = (exHeap 2, .ok exGauss) ∧
    Consistent (exHeap 2) exGauss ∧
    (update (exHeap 2) exGauss [1] (exPrec 1)).2.2 = some .shape ∧
    (update (exHeap 2) exGauss [1] (exPrec 1)).1 0 = exHeap 2 1 ∧
    (update (exHeap 2) exGauss [1] (exPrec 1)).1 0 ≠ exHeap 2 0 ∧
    ¬ Consistent (update (exHeap 2) exGauss [1] (exPrec 1)).1
      (update (exHeap 2) exGauss [1] (exPrec 1)).2.1 := by
  have hsy : (exPrec 1).AllcloseSymm := by
    intro b _ i _ j _
    simp [exPrec]; norm_num
  have hc : construct (exHeap 2) (fun _ => 1) [0] (some (exPrec 1)) = (exHeap 2, .ok exGauss) := by
    simp [construct, update, updMeans_self, checkPrec, hsy, exGauss]
    simp [exPrec, exHeap]
  have hu : update (exHeap 2) exGauss [1] (exPrec 1)
      = (Function.update (exHeap 2) 0 (exHeap 2 1), exGauss, some .shape) := by
    simp [update, exGauss, updMeans, varUpdate, exHeap, checkPrec, exPrec]
  refine ⟨hc, ((construct_spec _ _ _ _).1 _ _ hc).2.2.2.2, ?_, ?_, ?_, ?_⟩
  · rw [hu]
  · rw [hu]; simp
  · rw [hu]
    intro hh
    have := congrArg Ten.batch hh
    simp [exHeap] at this
  · rw [hu]
    intro hh
    have := hh.batch 0 (by simp [exGauss])
    simp [exGauss, exPrec, exHeap] at this

/-- Updating a Gaussian over two variables with the same variables in the other order does not
exchange them: the first value is overwritten before it is read. -/
theorem update_permuted :
    ∃ (h : Heap) (g : Obj) (p : PTen), (update h g [1, 0] p).2.2 = none ∧ g.mean = [0, 1] ∧
      (update h g [1, 0] p).1 1 ≠ h 0 := by
  refine ⟨exHeap 1, ⟨[0, 1], 2, ⟨(1, 2, 2), 64, 0, fun _ _ _ => 0⟩⟩, ⟨(1, 2, 2), 64, 0, fun _ _ _ => 0⟩,
    ?_, rfl, ?_⟩
  · have hsy : PTen.AllcloseSymm ⟨(1, 2, 2), 64, 0, fun _ _ _ => 0⟩ := by
      intro b _ i _ j _; simp; norm_num
    simp [update, updMeans, varUpdate, exHeap, checkPrec, hsy]
  · intro hh
    have := congrFun (congrArg Ten.val hh) 0
    simp [update, updMeans, varUpdate, exHeap, checkPrec] at this
    split_ifs at this <;> simp at this

/-- Non-vacuity of `update_ok`: a successful update from another variable. -/
example : (update (exHeap 2) exGauss [1] (exPrec 2)).2.2 = none ∧ exGauss.mean.Nodup ∧
    ∀ m ∈ [1], m ∉ exGauss.mean := by
  have hsy : (exPrec 2).AllcloseSymm := by
    intro b _ i _ j _
    simp [exPrec]; norm_num
  refine ⟨?_, by simp [exGauss], by simp [exGauss]⟩
  simp [update, exGauss, updMeans, varUpdate, exHeap, checkPrec, hsy]
  simp [exPrec]

end Verif.Gauss.State
