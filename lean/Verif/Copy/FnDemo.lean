import Verif.Copy.FnRobust

/-!
# Copies: what is not copied, and concrete cases (C113)
-/

namespace Verif.CopyFn
open Verif

variable {V : Type} (W : World V)

/-- **The options of an `AutoDiffCostFunction` are not copied**: whatever they are, the copy has the
default ones; only the error function, its dimension and the mode are kept. -/
theorem copy_autodiff_options {keep : Bool} {h h' : Heap V} {b b' : Base} (hc : b.IsCopy keep h h' b')
    {o : AutoOpts} (ho : b.cls = .autodiff o) : ∃ o', b'.cls = .autodiff o' ∧ o'.errFn = o.errFn ∧
      o'.dim = o.dim ∧ o'.mode = o.mode ∧ o'.createGraph = true ∧ o'.strict = false ∧
      o'.vectorize = false ∧ o'.strategy = "reverse-mode" :=
  ⟨{ errFn := o.errFn, dim := o.dim, mode := o.mode }, by rw [hc.cls, ho]; rfl, rfl, rfl, rfl, rfl, rfl, rfl,
    rfl⟩

/-- Data of classes other than `SO2` and `SE2` is always copied as it is. -/
theorem legal_of_classes {h : Heap V} {b : Base}
    (hb : ∀ d rs, (d, rs) = (b.attrs, b.optim ++ b.aux) ∨ (d, rs) = (b.weight.attrs, ctorW b.weight.cls) →
      ∀ r ∈ rs, ∀ a c, Dict.get? d r = some a → h[a]? = some c → c.cls ≠ .so2 ∧ c.cls ≠ .se2) :
    b.Legal W h := by
  have key : ∀ c : Cell V, c.cls ≠ .so2 ∧ c.cls ≠ .se2 → copyVal W c.cls c.val = c.val := by
    rintro ⟨n, k, v⟩ ⟨h1, h2⟩
    cases k with
    | so2 => exact absurd rfl h1
    | se2 => exact absurd rfl h2
    | _ => rfl
  exact ⟨fun r hr a c e1 e2 => key c (hb _ _ (.inr rfl) r hr a c e1 e2),
    fun r hr a c e1 e2 => key c (hb _ _ (.inl rfl) r hr a c e1 e2)⟩

/-! ## Concrete cases -/

/-- Data are integers; those on the group are even, the check rounds down; a hinge needs a positive upper
limit. -/
def demo : World Int where
  check _ v := v / 2 * 2
  ok c l := match c with
    | .hinge => decide ((0 : Int) < ((l[2]?).map fun p => p.2).getD 0)
    | _ => true
  okW _ _ := true
  reserved s := s = "name"
  reserved_copy s := by
    have : s ++ "_copy" ≠ "name" := by
      intro e
      have := congrArg (fun t => t.toList.drop (t.toList.length - 5)) e
      simp [String.toList_append] at this
    simpa using this

/-- For a concrete cost function the conditions are finite. -/
instance (h : Heap V) (d : Dict String Addr) (rs : List String) : Decidable (Has h d rs) :=
  decidable_of_iff (∀ r ∈ rs, ((d.get? r).any fun a => decide (a < h.length)) = true) (by
    refine forall_congr' fun r => forall_congr' fun _ => ?_
    cases d.get? r <;> simp)

theorem fixed_of {h : Heap V} {d : Dict String Addr} {rs : List String}
    (hf : ∀ c ∈ h, copyVal W c.cls c.val = c.val) : Fixed W h d rs :=
  fun _ _ _ c _ e => hf c (List.mem_of_getElem? e)

/-- The variables of a GP motion model and of its weight, which share `dt`. -/
def gpHeap : Heap Int := [⟨"pose1", .se2, 4⟩, ⟨"vel1", .vector 3, 1⟩, ⟨"pose2", .se2, 6⟩,
  ⟨"vel2", .vector 3, 2⟩, ⟨"dt", .plain, 5⟩, ⟨"Qc_inv", .plain, 9⟩]

/-- A GP motion model. -/
def gpFn : Base where
  cls := .gpMotion
  name := "gp"
  attrs := [("pose1", 0), ("vel1", 1), ("pose2", 2), ("vel2", 3), ("dt", 4)]
  optim := ["pose1", "vel1", "pose2", "vel2"]
  aux := ["dt"]
  weight := ⟨.gp, "w", [("Qc_inv", 5), ("dt", 4)]⟩

theorem gpFn_built : gpFn.Built gpHeap :=
  ⟨by decide, by decide, fun _ => by decide, (fun o h => by cases h), by decide⟩

theorem gpFn_legal : gpFn.Legal demo gpHeap := by
  have : ∀ c ∈ gpHeap, copyVal demo c.cls c.val = c.val := by decide
  exact ⟨fixed_of _ this, fixed_of _ this⟩

theorem gpFn_accepted : gpFn.Accepted demo gpHeap := ⟨rfl, fun _ => rfl⟩

/-- The conditions of `copy_cost_function_partial`, `copy_raises` and `copy_built` can be met. -/
example : gpFn.Built gpHeap ∧ gpFn.Legal demo gpHeap ∧ gpFn.Accepted demo gpHeap :=
  ⟨gpFn_built, gpFn_legal, gpFn_accepted⟩

/-- The result, with and without kept names: the weight's variables are renamed in both cases. -/
example : (gpFn.copy demo gpHeap none true).toOption.map (fun r => (r.1.drop 6).map fun c => (c.name, c.val)) =
      some [("pose1", 4), ("vel1", 1), ("pose2", 6), ("vel2", 2), ("dt", 5), ("Qc_inv_copy", 9),
        ("dt_copy", 5)] ∧
    (gpFn.copy demo gpHeap (some "g") false).toOption.map (fun r => (r.2.name, r.2.weight.name,
        (r.1.drop 6).map fun c => (c.name, c.val))) =
      some ("g", "w_copy", [("pose1_copy", 4), ("vel1_copy", 1), ("pose2_copy", 6), ("vel2_copy", 2),
        ("dt_copy", 5), ("Qc_inv_copy", 9), ("dt_copy", 5)]) := by decide +kernel

/-- **A GP motion model is not copied to a GP motion model, and its time step is split**: the original's
`dt` is the weight's, so one update changes both; in the copy an update of the cost function's `dt` leaves
the weight's. -/
theorem copy_shared_dt_wrong : ∃ h' b', gpFn.copy demo gpHeap none false = .ok (h', b') ∧
    b'.cls = .doubleIntegrator ∧ gpFn.attrs.get? "dt" = gpFn.weight.attrs.get? "dt" ∧
    ∃ a, b'.attrs.get? "dt" = some a ∧ b'.weight.attrs.get? "dt" ≠ some a ∧
      ∀ c, b'.weight.inputs (h'.set a c) = gpFn.weight.inputs gpHeap := by
  obtain ⟨h', b', e, -, hp, hc⟩ := copy_cost_function_partial demo none false gpFn_built gpFn_legal gpFn_accepted
  have hopt := hc.roles (by intro o h; cases h)
  have hm : "dt" ∈ b'.optim ++ b'.aux := by rw [hopt.1, hopt.2]; decide
  have hw : "dt" ∈ ctorW b'.weight.cls := by rw [hc.weight.cls]; decide
  have hd := copy_splits hc hm hw
  obtain ⟨a, ha, hlt⟩ := Copied.mem hc.aux "dt" (by rw [hopt.2]; decide)
  refine ⟨h', b', e, copy_gp_class hc rfl, rfl, a, ha, fun h => hd (ha.trans h.symm), fun c => ?_⟩
  rw [← hc.weight.inputs]
  refine List.map_congr_left fun s hs => ?_
  have hs' := copy_splits hc hm hs
  have hget : ∃ y, b'.weight.attrs.get? s = some y := by
    rw [hc.weight.cls] at hs
    obtain ⟨x, y, c, c', -, h2, -⟩ := hc.weight.vars s hs
    exact ⟨y, h2⟩
  obtain ⟨y, hy⟩ := hget
  refine attrVal_congr hy ?_
  rw [List.getElem?_set_ne]
  rintro rfl
  exact hs' (ha.trans hy.symm)

/-- An `AutoDiffCostFunction` with its own options. -/
def autoHeap : Heap Int := [⟨"x", .so3, 3⟩, ⟨"y", .vector 2, 1⟩, ⟨"c", .plain, 6⟩, ⟨"s", .plain, 2⟩]

/-- The cost function. -/
def autoFn : Base where
  cls := .autodiff ⟨0, 2, false, true, true, "forward-mode", 1⟩
  name := "f"
  attrs := [("x", 0), ("y", 1), ("c", 2)]
  optim := ["x", "y"]
  aux := ["c"]
  weight := ⟨.scale, "w", [("scale", 3)]⟩

theorem autoFn_built : autoFn.Built autoHeap := by
  refine ⟨by decide, by decide, fun h => absurd rfl (h _), fun o h => ⟨by decide, ?_⟩, by decide⟩
  have : ∀ r ∈ autoFn.optim ++ autoFn.aux, ∀ s ∈ autoFn.optim ++ autoFn.aux,
      ((autoFn.attrs.get? r).bind fun x => (autoHeap[x]?).map Cell.name) =
        ((autoFn.attrs.get? s).bind fun x => (autoHeap[x]?).map Cell.name) → r = s := by decide
  intro r hr s hs x y c c' e1 e2 e3 e4 e5
  exact this r hr s hs (by simp [e1, e2, e3, e4, e5])

theorem autoFn_legal : autoFn.Legal demo autoHeap := by
  have : ∀ c ∈ autoHeap, copyVal demo c.cls c.val = c.val := by decide
  exact ⟨fixed_of _ this, fixed_of _ this⟩

theorem autoFn_accepted : autoFn.Accepted demo autoHeap := ⟨rfl, fun h => absurd rfl (h _)⟩

example : autoFn.Built autoHeap ∧ autoFn.Legal demo autoHeap ∧ autoFn.Accepted demo autoHeap ∧
    ¬ DefaultOpts autoFn.cls :=
  ⟨autoFn_built, autoFn_legal, autoFn_accepted, fun h => by simpa using (h _ rfl).1⟩

example : (autoFn.copy demo autoHeap none true).toOption.map (fun r => (r.2.attrs, r.2.optim, r.2.aux,
      (r.1.drop 4).map Cell.name)) =
    some ([("x_copy", 4), ("y_copy", 5), ("c_copy", 6)], ["x_copy", "y_copy"], ["c_copy"],
      ["x", "y", "c", "s_copy"]) := by decide +kernel

/-- **Data off the group is normalized in the copy**: copying an `SO2` or `SE2` variable runs the check of
its constructor, so the copy does not evaluate to the same if the data is off the group (which `update` does
not refuse).  `SO3` and `SE3` variables keep their data: `copyVal`. -/
theorem copy_normalizes : ∃ (h : Heap Int) (b : Base) (h' : Heap Int) (b' : Base),
    b.Built h ∧ b.Accepted demo h ∧ b.copy demo h none false = .ok (h', b') ∧ b'.inputs h' ≠ b.inputs h := by
  refine ⟨[⟨"a", .so2, 3⟩, ⟨"b", .so2, 2⟩, ⟨"s", .plain, 1⟩],
    ⟨.local, "f", [("var", 0), ("target", 1)], ["var"], ["target"], ⟨.scale, "w", [("scale", 2)]⟩⟩,
    [⟨"a", .so2, 3⟩, ⟨"b", .so2, 2⟩, ⟨"s", .plain, 1⟩, ⟨"a_copy", .so2, 2⟩, ⟨"b_copy", .so2, 2⟩,
      ⟨"s_copy", .plain, 1⟩],
    ⟨.local, "f_copy", [("var", 3), ("target", 4)], ["var"], ["target"], ⟨.scale, "w_copy", [("scale", 5)]⟩⟩,
    ⟨by decide, by decide, fun _ => by decide, (fun o h => by cases h), by decide⟩, ⟨rfl, fun _ => rfl⟩,
    ?_, by decide +kernel⟩
  simp [Base.copy, Base.copyImpl, getattrs, passed, Dict.get?, copyAll, copyCell, copyVal, demo, Wt.copy, passedW, look,
    ctorW, finishFn, finish, meet, newName, copyCls, ctor, optimRoles, auxRoles]

/-- A `HingeCost` whose upper limit was updated to what its constructor refuses. -/
def hingeFn : Base where
  cls := .hinge
  name := "h"
  attrs := [("vector", 0), ("down_limit", 1), ("up_limit", 2), ("threshold", 3)]
  optim := ["vector"]
  aux := ["down_limit", "up_limit", "threshold"]
  weight := ⟨.diagonal, "w", [("diagonal", 4)]⟩

/-- Its variables. -/
def hingeHeap (up : Int) : Heap Int := [⟨"v", .vector 1, 3⟩, ⟨"lo", .plain, -7⟩, ⟨"up", .plain, up⟩,
  ⟨"t", .plain, 0⟩, ⟨"d", .plain, 1⟩]

/-- **`copy` raises for a cost function that works**, if a limit was updated to what the constructor
refuses. -/
theorem copy_hinge_raises (up : Int) : hingeFn.copy demo (hingeHeap up) none false = .error .value ↔ up ≤ 0 := by
  have hb : hingeFn.Built (hingeHeap up) :=
    ⟨by simp [hingeFn, hingeHeap, Has, ctorW, Dict.get?], by simp [hingeFn, hingeHeap, Has, Dict.get?],
      fun _ => by decide, (fun o h => by cases h), by decide⟩
  have hl : hingeFn.Legal demo (hingeHeap up) := by
    have : ∀ c ∈ hingeHeap up, copyVal demo c.cls c.val = c.val := by simp [hingeHeap, copyVal]
    exact ⟨fixed_of _ this, fixed_of _ this⟩
  rw [copy_raises demo none false hb hl]
  constructor
  · intro h
    by_contra hup
    refine h ⟨rfl, fun _ => ?_⟩
    simpa [demo, hingeFn, hingeHeap, copyCls, ctor, attrVal, Dict.get?, List.filterMap] using hup
  · intro h ha
    have := ha.vars (by intro o h; cases h)
    simp [demo, hingeFn, hingeHeap, copyCls, ctor, attrVal, Dict.get?, List.filterMap] at this
    omega

/-! ### Robust cost functions -/

/-- A GNC robust GP motion model. -/
def gncHeap : Heap Int := gpHeap ++ [⟨"radius", .vector 1, 0⟩, ⟨"mu", .vector 1, 1⟩]

/-- The cost function. -/
def gncFn : Robust where
  gnc := true
  loss := 2
  flatten := true
  name := "r"
  inner := gpFn
  attrs := [("log_loss_radius", 6), ("gnc_control_val", 7), ("pose1", 0), ("vel1", 1), ("pose2", 2),
    ("vel2", 3), ("dt", 4)]
  optim := ["pose1", "vel1", "pose2", "vel2"]
  aux := ["dt", "log_loss_radius", "gnc_control_val"]

/-- The conditions of `copy_robust` can be met. -/
example : gncFn.Built gncHeap ∧ gncFn.inner.Legal demo gncHeap ∧
    Fixed demo gncHeap gncFn.attrs (extra gncFn.gnc) ∧ gncFn.inner.Accepted demo gncHeap := by
  have : ∀ c ∈ gncHeap, copyVal demo c.cls c.val = c.val := by decide
  exact ⟨⟨⟨by decide, by decide, fun _ => by decide, (fun o h => by cases h), by decide⟩, rfl, rfl, by decide,
    by decide, by decide⟩, ⟨fixed_of _ this, fixed_of _ this⟩, fixed_of _ this, ⟨rfl, fun _ => rfl⟩⟩

example : (gncFn.copy demo gncHeap none true).toOption.map (fun r => (r.2.gnc, r.2.loss, r.2.flatten,
      (r.1.drop 8).map fun c => (c.name, c.val))) =
    some (true, 2, true, [("pose1", 4), ("vel1", 1), ("pose2", 6), ("vel2", 2), ("dt", 5), ("Qc_inv_copy", 9),
      ("dt_copy", 5), ("radius", 0), ("mu", 1)]) := by decide +kernel

/-- **A detached robust cost function**: when an attribute of the wrapper is set to another variable (which
`Objective.copy` does, C11), the wrapped cost function still reads the old one, and so does its copy in what it
copies: the copy's attribute has the data of the old variable. -/
theorem copy_robust_detached_wrong : ∃ (h : Heap Int) (r : Robust) (h' : Heap Int) (r' : Robust),
    r.inner.Built h ∧ r.copy demo h none false = .ok (h', r') ∧
      attrVal h r.attrs "var" = some (.so3, 8) ∧ attrVal h' r'.attrs "var" = some (.so3, 3) := by
  refine ⟨[⟨"a", .so3, 3⟩, ⟨"b", .so3, 2⟩, ⟨"s", .plain, 1⟩, ⟨"l", .vector 1, 0⟩, ⟨"a", .so3, 8⟩],
    ⟨false, 0, false, "r", ⟨.local, "f", [("var", 0), ("target", 1)], ["var"], ["target"],
        ⟨.scale, "w", [("scale", 2)]⟩⟩,
      [("log_loss_radius", 3), ("var", 4), ("target", 1)], ["var"], ["target", "log_loss_radius"]⟩, ?_⟩
  refine ⟨[⟨"a", .so3, 3⟩, ⟨"b", .so3, 2⟩, ⟨"s", .plain, 1⟩, ⟨"l", .vector 1, 0⟩, ⟨"a", .so3, 8⟩,
      ⟨"a_copy", .so3, 3⟩, ⟨"b_copy", .so3, 2⟩, ⟨"s_copy", .plain, 1⟩, ⟨"l_copy", .vector 1, 0⟩],
    ⟨false, 0, false, "r_copy", ⟨.local, "f_copy", [("var", 5), ("target", 6)], ["var"], ["target"],
        ⟨.scale, "w_copy", [("scale", 7)]⟩⟩,
      [("log_loss_radius", 8), ("var", 5), ("target", 6)], ["var"], ["target", "log_loss_radius"]⟩,
    ⟨by decide, by decide, fun _ => by decide, (fun o h => by cases h), by decide⟩, ?_, by decide, by decide⟩
  simp [Robust.copy, Robust.copyImpl, extra, Base.copy, Base.copyImpl, getattrs, passed, Dict.get?, copyAll, copyCell,
    copyVal, demo, Wt.copy, passedW, look, ctorW, finishFn, finish, meet, newName, copyCls, ctor, optimRoles, auxRoles]

end Verif.CopyFn
