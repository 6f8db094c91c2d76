import Verif.Objective.Lemmas
import Verif.Objective.Spec
import Mathlib.Tactic.Tauto
/-! The global invariant of the `Objective` model and its preservation. -/
set_option linter.unusedSimpArgs false
namespace Verif.Objective
open Verif

/-- Link counts implied by the list `reg` of not-yet-erased `add` calls. -/
def usage (reg : List CostFn) : Usage
  | .optim, v, .cost c => reg.count c * c.optimVars.count v
  | .aux, v, .cost c => reg.count c * c.auxVars.count v
  | .aux, v, .weight w => if w ∈ reg.map CostFn.weight then w.auxVars.count v else 0
  | _, _, _ => 0

def cntC (o : Option (List CostFn)) (c : CostFn) : Nat :=
  match o with | none => 0 | some l => l.count c

structure Inv (s : State) (cs reg : List CostFn) : Prop where
  rg : Reg s (usage reg)
  costs : s.costFns = cs.map (fun c => (c.name, c))
  names : (cs.map CostFn.name).Nodup
  sub : ∀ c ∈ cs, c ∈ reg
  nowopt : ∀ c ∈ reg, c.weight.optimVars = []
  dty : ∀ c ∈ reg, ∀ v ∈ c.vars, v.dtype = s.dtype
  wcnt : ∀ w c, cntC (s.cfForWeights.get? w) c = if c.weight = w then reg.count c else 0
  wne : ∀ w, s.cfForWeights.get? w ≠ some []
  wnod : (s.cfForWeights.keys).Nodup

theorem init_inv (dt : Nat) : Inv (init dt false) [] [] := by
  constructor
  · constructor <;> simp [init, State.fnMap, State.typed, cnt, usage, Used, Dict.get?, Dict.keys]
    · intro k hk v f; cases k <;> cases f <;> simp_all [cnt, usage, Dict.get?]
    · intro k hk v; cases k <;> simp_all [Dict.get?]
    · intro k hk n v; cases k <;> simp_all [Dict.get?]
      · intro _ f; cases f <;> simp [usage]
      · intro _ f; cases f <;> simp [usage]
    · intro n v hn; constructor <;> intro f <;> cases f <;> simp [usage]
    · intro v f hf; cases f <;> simp [usage] at hf
  all_goals simp [init, cntC, Dict.get?, Dict.keys]

theorem used_optim_iff (reg : List CostFn) (v : Var) :
    Used (usage reg) .optim v ↔ UsesOptim reg v := by
  unfold Used UsesOptim CostFn.optims
  constructor
  · rintro ⟨f, hf⟩
    cases f with
    | weight w => simp [usage] at hf
    | cost c =>
      simp only [usage] at hf
      have h1 := Nat.pos_of_mul_pos_left hf
      have h2 := Nat.pos_of_mul_pos_right hf
      exact ⟨c, List.count_pos_iff.1 (by assumption), List.count_pos_iff.1 (by assumption)⟩
  · rintro ⟨c, hc, hv⟩
    refine ⟨.cost c, ?_⟩
    simp only [usage]
    exact Nat.mul_pos (List.count_pos_iff.2 hc) (List.count_pos_iff.2 hv)

theorem used_aux_iff (reg : List CostFn) (v : Var) :
    Used (usage reg) .aux v ↔ UsesAux reg v := by
  unfold Used UsesAux CostFn.auxs
  constructor
  · rintro ⟨f, hf⟩
    cases f with
    | weight w =>
      simp only [usage] at hf
      split at hf
      · next h =>
        obtain ⟨c, hc, rfl⟩ := List.mem_map.1 h
        exact ⟨c, hc, List.mem_append_right _ (List.count_pos_iff.1 hf)⟩
      · simp at hf
    | cost c =>
      simp only [usage] at hf
      have h1 := Nat.pos_of_mul_pos_left hf
      have h2 := Nat.pos_of_mul_pos_right hf
      exact ⟨c, List.count_pos_iff.1 (by assumption),
        List.mem_append_left _ (List.count_pos_iff.1 (by assumption))⟩
  · rintro ⟨c, hc, hv⟩
    rcases List.mem_append.1 hv with hv | hv
    · refine ⟨.cost c, ?_⟩
      simp only [usage]
      exact Nat.mul_pos (List.count_pos_iff.2 hc) (List.count_pos_iff.2 hv)
    · refine ⟨.weight c.weight, ?_⟩
      simp only [usage, List.mem_map_of_mem hc, if_true]
      exact List.count_pos_iff.2 hv

theorem uses_iff (cs : List CostFn) (v : Var) : Uses cs v ↔ UsesOptim cs v ∨ UsesAux cs v := by
  simp only [Uses, UsesOptim, UsesAux, CostFn.vars, List.mem_append]
  constructor
  · rintro ⟨c, hc, h | h⟩
    · exact Or.inl ⟨c, hc, h⟩
    · exact Or.inr ⟨c, hc, h⟩
  · rintro (⟨c, hc, h⟩ | ⟨c, hc, h⟩)
    · exact ⟨c, hc, Or.inl h⟩
    · exact ⟨c, hc, Or.inr h⟩

theorem Inv.weight_has {s : State} {cs reg : List CostFn} (h : Inv s cs reg) (w : Weight) :
    (∃ l, s.cfForWeights.get? w = some l) ↔ w ∈ reg.map CostFn.weight := by
  constructor
  · rintro ⟨l, hl⟩
    cases l with
    | nil => exact absurd hl (h.wne w)
    | cons c l =>
      have := h.wcnt w c
      rw [hl] at this
      simp only [cntC, List.count_cons_self] at this
      split at this
      · next e => subst e; exact List.mem_map_of_mem (List.count_pos_iff.1 (by omega))
      · omega
  · intro hw
    obtain ⟨c, hc, rfl⟩ := List.mem_map.1 hw
    have := h.wcnt c.weight c
    have h2 := List.count_pos_iff.2 hc
    cases hl : s.cfForWeights.get? c.weight with
    | none => rw [hl] at this; simp only [cntC, if_true] at this; omega
    | some l => exact ⟨l, rfl⟩

theorem usage_append (reg : List CostFn) (c : CostFn) (hw : c.weight ∉ reg.map CostFn.weight) :
    bumps (bumps (bumps (usage reg) .optim (.cost c) c.optimVars) .aux (.cost c) c.auxVars)
      .aux (.weight c.weight) c.weight.auxVars = usage (reg ++ [c]) := by
  funext k v f
  cases k <;> cases f with
  | cost d =>
    by_cases e : d = c
    · subst e; simp [bumps, usage, Nat.add_mul]
    · simp [bumps, usage, e, Ne.symm e, List.count_append]
  | weight w =>
    by_cases e : w = c.weight
    · subst e; simp [bumps, usage, hw]
    · simp [bumps, usage, e]

theorem usage_append' (reg : List CostFn) (c : CostFn) (hw : c.weight ∈ reg.map CostFn.weight) :
    bumps (bumps (usage reg) .optim (.cost c) c.optimVars) .aux (.cost c) c.auxVars
      = usage (reg ++ [c]) := by
  funext k v f
  cases k <;> cases f with
  | cost d =>
    by_cases e : d = c
    · subst e; simp [bumps, usage, Nat.add_mul]
    · simp [bumps, usage, e, Ne.symm e, List.count_append]
  | weight w =>
    by_cases e : w = c.weight
    · subst e; simp [bumps, usage, hw]
    · simp [bumps, usage, e]


theorem Reg.congr {s s' : State} {U : Usage} (h : Reg s U) (h1 : s'.mixed = s.mixed)
    (h2 : s'.cwOptimVars = s.cwOptimVars) (h3 : s'.optimVars = s.optimVars)
    (h4 : s'.auxVars = s.auxVars) (h5 : s'.fnsForOptim = s.fnsForOptim)
    (h6 : s'.fnsForAux = s.fnsForAux) (h7 : s'.allVars = s.allVars) : Reg s' U := by
  have hf : ∀ k, s'.fnMap k = s.fnMap k := by intro k; cases k <;> simp [State.fnMap, h5, h6]
  have ht : ∀ k, s'.typed k = s.typed k := by intro k; cases k <;> simp [State.typed, h2, h3, h4]
  constructor
  · rw [h1, h.mixed]
  · rw [h2, h.cw]
  · intro k hk; rw [hf]; exact h.cnt k hk
  · intro k hk; rw [hf]; exact h.ne k hk
  · intro k hk; rw [ht]; exact h.typ k hk
  · rw [h7]; exact h.all
  · exact h.disj
  · rw [h3]; exact h.nodO
  · rw [h4]; exact h.nodA
  · rw [h5]; exact h.nodFO
  · rw [h6]; exact h.nodFA
  · rw [h7]; exact h.nodAll

/-- `dualCheck` never fires in a consistent, non-mixed state. -/
theorem dualCheck_ok {s : State} {U : Usage} (h : Reg s U) (c : CostFn)
    (h1 : ∀ v ∈ c.optimVars ++ c.weight.optimVars, Used U .optim v)
    (h2 : ∀ v ∈ c.auxVars ++ c.weight.auxVars, Used U .aux v) : dualCheck s c = (s, none) := by
  have huniq : ∀ u v, (Used U .optim u ∨ Used U .aux u) → (Used U .optim v ∨ Used U .aux v) →
      u.name = v.name → u = v := by
    intro u v hu hv hn
    have a := (h.all v.name u).2 ⟨hn, hu⟩
    have b := (h.all v.name v).2 ⟨rfl, hv⟩
    rw [a] at b; simpa using b
  unfold dualCheck
  simp only [h.mixed, Bool.false_eq_true, if_false]
  rw [if_neg, if_neg]
  · intro hh
    obtain ⟨v, hv, hb⟩ := List.any_eq_true.1 hh
    obtain ⟨u, hu⟩ := Dict.has_iff.1 hb
    have hu' := (h.typ .optim (by simp) _ _).1 hu
    have := huniq u v (Or.inl hu'.2) (Or.inr (h2 v hv)) hu'.1
    subst this
    exact h.disj _ hu'.2 (h2 _ hv)
  · intro hh
    obtain ⟨v, hv, hb⟩ := List.any_eq_true.1 hh
    obtain ⟨u, hu⟩ := Dict.has_iff.1 hb
    have hu' := (h.typ .aux (by simp) _ _).1 hu
    have := huniq u v (Or.inr hu'.2) (Or.inl (h1 v hv)) hu'.1
    subst this
    exact h.disj _ (h1 _ hv) hu'.2

/-- Usage after the cost function's own variables have been linked. -/
def usage2 (reg : List CostFn) (c : CostFn) : Usage :=
  bumps (bumps (usage reg) .optim (.cost c) c.optimVars) .aux (.cost c) c.auxVars

theorem addBody_core {s : State} {reg : List CostFn} {c : CostFn}
    (hr : Reg s (usage reg)) (hnw : ∀ d ∈ reg, d.weight.optimVars = [])
    (hwh : (∃ l, s.cfForWeights.get? c.weight = some l) ↔ c.weight ∈ reg.map CostFn.weight) :
    ((addBody s c).2 = none ↔ c.weight.optimVars = [] ∧ AddsOk s.dtype (usage reg) .optim c.optimVars ∧
      AddsOk s.dtype (bumps (usage reg) .optim (.cost c) c.optimVars) .aux c.auxVars ∧
      (c.weight ∉ reg.map CostFn.weight → AddsOk s.dtype (usage2 reg c) .aux c.weight.auxVars)) ∧
    ((addBody s c).2 = none →
      Reg (addBody s c).1 (usage (reg ++ [c])) ∧ (addBody s c).1.costFns = s.costFns ∧
      (addBody s c).1.version = s.version + 1 ∧ (addBody s c).1.dtype = s.dtype ∧
      (∀ w, (addBody s c).1.cfForWeights.get? w = if c.weight = w then
        some ((s.cfForWeights.get? c.weight).getD [] ++ [c]) else s.cfForWeights.get? w) ∧
      ((s.cfForWeights.keys).Nodup → ((addBody s c).1.cfForWeights.keys).Nodup)) := by
  unfold addBody
  simp only []
  have hr0 : Reg { s with version := s.version + 1 } (usage reg) :=
    hr.congr rfl rfl rfl rfl rfl rfl rfl
  generalize hs0 : ({ s with version := s.version + 1 } : State) = s0 at hr0
  have e0 : s0.costFns = s.costFns ∧ s0.cfForWeights = s.cfForWeights ∧
      s0.version = s.version + 1 ∧ s0.dtype = s.dtype := by subst hs0; exact ⟨rfl, rfl, rfl, rfl⟩
  simp only [Res.andThen_ok]
  rw [addFnVars_ok_iff hr0 (by simp), e0.2.2.2]
  by_cases h1 : AddsOk s.dtype (usage reg) .optim c.optimVars
  case neg =>
    refine ⟨⟨fun h => absurd h.1 h1, fun h => absurd h.2.1 h1⟩, fun h => absurd h.1 h1⟩
  have h1' : (addFnVars s0 (.cost c) .optim c.optimVars).2 = none := by
    rw [addFnVars_ok_iff hr0 (by simp), e0.2.2.2]; exact h1
  obtain ⟨r1, f1⟩ := addFnVars_reg hr0 (by simp) h1'
  rw [Res.andThen_of_ok h1']
  generalize (addFnVars s0 (.cost c) .optim c.optimVars).1 = s1 at r1 f1
  have d1 : s1.dtype = s.dtype := f1.dtype.trans e0.2.2.2
  rw [addFnVars_ok_iff r1 (by simp), d1]
  by_cases h2 : AddsOk s.dtype (bumps (usage reg) .optim (.cost c) c.optimVars) .aux c.auxVars
  case neg =>
    refine ⟨⟨fun h => absurd h.2.1 h2, fun h => absurd h.2.2.1 h2⟩, fun h => absurd h.2.1 h2⟩
  have h2' : (addFnVars s1 (.cost c) .aux c.auxVars).2 = none := by
    rw [addFnVars_ok_iff r1 (by simp), d1]; exact h2
  obtain ⟨r2, f2⟩ := addFnVars_reg r1 (by simp) h2'
  rw [Res.andThen_of_ok h2']
  generalize (addFnVars s1 (.cost c) .aux c.auxVars).1 = s2 at r2 f2
  have d2 : s2.dtype = s.dtype := f2.dtype.trans d1
  have w2 : s2.cfForWeights = s.cfForWeights := (f2.cfw.trans f1.cfw).trans e0.2.1
  have v2 : s2.version = s.version + 1 := (f2.version.trans f1.version).trans e0.2.2.1
  have c2 : s2.costFns = s.costFns := (f2.costFns.trans f1.costFns).trans e0.1
  simp only [h1, h2, true_and]
  by_cases hmem : c.weight ∈ reg.map CostFn.weight
  · -- the weight is already registered
    obtain ⟨l, hl⟩ := hwh.2 hmem
    have hwo : c.weight.optimVars = [] := by
      obtain ⟨d, hd, e⟩ := List.mem_map.1 hmem
      rw [← e]; exact hnw d hd
    have haw : addWeight s2 c = (s2, none) := by
      unfold addWeight; simp [Dict.has, w2, hl]
    rw [haw, usage_append' reg c hmem] at *
    simp only [Res.andThen, linkWeight, w2, hl, hmem, hwo, not_true_eq_false, false_implies, and_true,
      true_and]
    have r3 : Reg ({ s2 with cfForWeights := s.cfForWeights.set c.weight (l ++ [c]) } : State)
        (usage (reg ++ [c])) := r2.congr rfl rfl rfl rfl rfl rfl rfl
    rw [dualCheck_ok r3 c]
    · simp only [true_and, true_implies, iff_self]
      refine ⟨r3, c2, v2, d2, ?_, ?_⟩
      · intro w; simp [Dict.get?_set]
      · intro hn; exact Dict.nodup_set hn _ _
    · intro v hv
      rw [hwo, List.append_nil] at hv
      rw [used_optim_iff]
      exact ⟨c, by simp, hv⟩
    · intro v hv
      rw [used_aux_iff]
      exact ⟨c, by simp, hv⟩
  · have hnone : s.cfForWeights.get? c.weight = none := by
      cases hl : s.cfForWeights.get? c.weight with
      | none => rfl
      | some l => exact absurd (hwh.1 ⟨l, hl⟩) hmem
    have hhas : s2.cfForWeights.has c.weight = false := by simp [Dict.has, w2, hnone]
    simp only [hmem, not_false_eq_true, true_implies]
    by_cases hwo : c.weight.optimVars = []
    case neg =>
      have : (addWeight s2 c).2 ≠ none := by
        unfold addWeight
        simp only [hhas, Bool.false_eq_true, if_false]
        intro hh
        rw [Res.andThen_ok, Res.andThen_ok] at hh
        have := hh.2.2
        rw [if_pos (by
          cases hx : c.weight.optimVars with
          | nil => exact absurd hx hwo
          | cons a b => simp)] at this
        simp at this
      refine ⟨⟨fun h => absurd h.1 this, fun h => absurd h.1 hwo⟩, fun h => absurd h.1 this⟩
    have haw : addWeight s2 c =
        (addFnVars s2 (.weight c.weight) .aux c.weight.auxVars).andThen fun s =>
          ({ s with cfForWeights := s.cfForWeights.set c.weight [] }, none) := by
      unfold addWeight
      simp [hhas, hwo, addFnVars, Res.andThen]
    simp only [hwo, true_and]
    have hiff : (addWeight s2 c).2 = none ↔ AddsOk s.dtype (usage2 reg c) .aux c.weight.auxVars := by
      rw [haw, Res.andThen_ok, addFnVars_ok_iff r2 (by simp), d2]
      simp [usage2]
    by_cases h3 : AddsOk s.dtype (usage2 reg c) .aux c.weight.auxVars
    case neg =>
      rw [hiff]
      refine ⟨⟨fun h => absurd h.1 h3, fun h => absurd h h3⟩, fun h => absurd h.1 h3⟩
    have h3' : (addFnVars s2 (.weight c.weight) .aux c.weight.auxVars).2 = none := by
      rw [addFnVars_ok_iff r2 (by simp), d2]; exact h3
    obtain ⟨r3, f3⟩ := addFnVars_reg r2 (by simp) h3'
    rw [haw, Res.andThen_of_ok h3']
    rw [usage_append reg c hmem] at r3
    generalize (addFnVars s2 (.weight c.weight) .aux c.weight.auxVars).1 = s3 at r3 f3
    have w3 := f3.cfw.trans w2
    simp only [Res.andThen, linkWeight, w3, Dict.get?_set_self, h3, true_and]
    have r4 : Reg ({ s3 with cfForWeights := (s.cfForWeights.set c.weight []).set c.weight ([] ++ [c]) }
      : State) (usage (reg ++ [c])) := r3.congr rfl rfl rfl rfl rfl rfl rfl
    rw [dualCheck_ok r4 c]
    · simp only [true_and, true_implies, iff_self]
      refine ⟨r4, f3.costFns.trans c2, f3.version.trans v2, f3.dtype.trans d2, ?_, ?_⟩
      · intro w; simp only [Dict.get?_set, hnone]; split <;> simp
      · intro hn; exact Dict.nodup_set (Dict.nodup_set hn _ _) _ _
    · intro v hv
      rw [hwo, List.append_nil] at hv
      rw [used_optim_iff]
      exact ⟨c, by simp, hv⟩
    · intro v hv
      rw [used_aux_iff]
      exact ⟨c, by simp, hv⟩


theorem get?_costs (cs : List CostFn) (hn : (cs.map CostFn.name).Nodup) (n : Nat) (c : CostFn) :
    Dict.get? (cs.map (fun c => (c.name, c))) n = some c ↔ c ∈ cs ∧ c.name = n := by
  induction cs with
  | nil => simp [Dict.get?]
  | cons d cs ih =>
    simp only [List.map_cons, List.nodup_cons] at hn
    simp only [List.map_cons, Dict.get?]
    by_cases e : d.name = n
    · simp only [e, if_true, Option.some.injEq, List.mem_cons]
      constructor
      · rintro rfl; exact ⟨Or.inl rfl, e⟩
      · rintro ⟨rfl | hc, hcn⟩
        · rfl
        · exact absurd (List.mem_map.2 ⟨c, hc, hcn.trans e.symm⟩) hn.1
    · simp only [e, if_false, ih hn.2, List.mem_cons]
      constructor
      · rintro ⟨a, b⟩; exact ⟨Or.inr a, b⟩
      · rintro ⟨rfl | a, b⟩
        · exact absurd b e
        · exact ⟨a, b⟩

theorem Inv.uniq {s : State} {cs reg : List CostFn} (h : Inv s cs reg) {u v : Var}
    (hu : Uses reg u) (hv : Uses reg v) (hn : u.name = v.name) : u = v := by
  rw [uses_iff, ← used_optim_iff, ← used_aux_iff] at hu hv
  have a := (h.rg.all v.name u).2 ⟨hn, hu⟩
  have b := (h.rg.all v.name v).2 ⟨rfl, hv⟩
  rw [a] at b; simpa using b

theorem Inv.disj {s : State} {cs reg : List CostFn} (h : Inv s cs reg) {v : Var}
    (ho : UsesOptim reg v) (ha : UsesAux reg v) : False :=
  h.rg.disj v ((used_optim_iff _ _).2 ho) ((used_aux_iff _ _).2 ha)

theorem addBody_acc {s : State} {reg : List CostFn} {c : CostFn}
    (hr : Reg s (usage reg)) (hnw : ∀ d ∈ reg, d.weight.optimVars = [])
    (hdt : ∀ d ∈ reg, ∀ v ∈ d.vars, v.dtype = s.dtype)
    (hwh : (∃ l, s.cfForWeights.get? c.weight = some l) ↔ c.weight ∈ reg.map CostFn.weight) :
    (addBody s c).2 = none ↔ (c.weight.optimVars = [] ∧ (∀ v ∈ c.vars, v.dtype = s.dtype) ∧
      (∀ v ∈ c.vars, ∀ u, u ∈ c.vars ∨ Uses reg u → u.name = v.name → u = v) ∧
      (∀ v ∈ c.optims, v ∉ c.auxs ∧ ¬ UsesAux reg v) ∧ (∀ v ∈ c.auxs, ¬ UsesOptim reg v)) := by
  have huniq : ∀ u v, Uses reg u → Uses reg v → u.name = v.name → u = v := by
    intro u v hu hv hn
    rw [uses_iff, ← used_optim_iff, ← used_aux_iff] at hu hv
    have a := (hr.all v.name u).2 ⟨hn, hu⟩
    have b := (hr.all v.name v).2 ⟨rfl, hv⟩
    rw [a] at b; simpa using b
  have hdisj : ∀ v, UsesOptim reg v → UsesAux reg v → False := fun v ho ha =>
    hr.disj v ((used_optim_iff _ _).2 ho) ((used_aux_iff _ _).2 ha)
  rw [(addBody_core hr hnw hwh).1]
  simp only [AddsOk, usage2, used_bumps, used_optim_iff, used_aux_iff, Kind.other, uses_iff,
    CostFn.vars, CostFn.optims, CostFn.auxs, List.mem_append] at *
  have hwaux : c.weight ∈ reg.map CostFn.weight → ∀ v ∈ c.weight.auxVars, UsesAux reg v ∧
      v.dtype = s.dtype := by
    intro hm v hv
    obtain ⟨d, hd, e⟩ := List.mem_map.1 hm
    refine ⟨⟨d, hd, ?_⟩, hdt d hd v ?_⟩
    · simp only [CostFn.auxs, List.mem_append]; right; rw [e]; exact hv
    · right; right; rw [e]; exact hv
  constructor
  · rintro ⟨hw, h1, h2, h3⟩
    have h3' : ∀ v ∈ c.weight.auxVars, v.dtype = s.dtype ∧
        (∀ u, (UsesOptim reg u ∨ UsesAux reg u ∨ u ∈ c.optimVars ∨ u ∈ c.auxVars ∨
          u ∈ c.weight.auxVars) → u.name = v.name → u = v) ∧ ¬ UsesOptim reg v ∧
          v ∉ c.optimVars := by
      intro v hv
      by_cases hm : c.weight ∈ reg.map CostFn.weight
      · obtain ⟨ha, hd⟩ := hwaux hm v hv
        refine ⟨hd, ?_, fun ho => hdisj v ho ha, fun ho => ?_⟩
        · rintro u (hu | hu | hu | hu | hu) hn
          · exact huniq u v (Or.inl hu) (Or.inr ha) hn
          · exact huniq u v (Or.inr hu) (Or.inr ha) hn
          · exact ((h1 u hu).2.1 v (Or.inr (Or.inl ha)) hn.symm).symm
          · exact ((h2 u hu).2.1 v (by tauto) hn.symm).symm
          · exact huniq u v (Or.inr (hwaux hm u hu).1) (Or.inr ha) hn
        · exact (h1 v ho).2.2 ha
      · have := h3 hm v hv
        refine ⟨this.1, ?_, ?_, ?_⟩
        · intro u hu hn
          refine this.2.1 u ?_ hn
          tauto
        · intro ho; exact this.2.2 (by tauto)
        · intro ho; exact this.2.2 (by tauto)
    refine ⟨hw, ?_, ?_, ?_, ?_⟩
    · rintro v (hv | hv | hv)
      · exact (h1 v hv).1
      · exact (h2 v hv).1
      · exact (h3' v hv).1
    · rintro v (hv | hv | hv) u hu hn
      · rcases hu with (hu | hu | hu) | hu | hu
        · exact (h1 v hv).2.1 u (by tauto) hn
        · exact ((h2 u hu).2.1 v (by tauto) hn.symm).symm
        · exact ((h3' u hu).2.1 v (by tauto) hn.symm).symm
        · exact (h1 v hv).2.1 u (by tauto) hn
        · exact (h1 v hv).2.1 u (by tauto) hn
      · rcases hu with (hu | hu | hu) | hu | hu
        · exact (h2 v hv).2.1 u (by tauto) hn
        · exact (h2 v hv).2.1 u (by tauto) hn
        · exact ((h3' u hu).2.1 v (by tauto) hn.symm).symm
        · exact (h2 v hv).2.1 u (by tauto) hn
        · exact (h2 v hv).2.1 u (by tauto) hn
      · exact (h3' v hv).2.1 u (by tauto) hn
    · intro v hv
      refine ⟨?_, (h1 v hv).2.2⟩
      rintro (ha | ha)
      · exact (h2 v ha).2.2 (by tauto)
      · exact (h3' v ha).2.2.2 hv
    · rintro v (hv | hv) ho
      · exact (h2 v hv).2.2 (by tauto)
      · exact (h3' v hv).2.2.1 ho
  · rintro ⟨hw, hd, hu, ho, ha⟩
    refine ⟨hw, ?_, ?_, ?_⟩
    · intro v hv
      exact ⟨hd v (by tauto), fun u hu' hn => hu v (by tauto) u (by tauto) hn, (ho v hv).2⟩
    · intro v hv
      refine ⟨hd v (by tauto), fun u hu' hn => hu v (by tauto) u (by tauto) hn, ?_⟩
      rintro (hh | ⟨_, hh⟩)
      · exact ha v (by tauto) hh
      · exact (ho v hh).1 (by tauto)
    · intro _ v hv
      refine ⟨hd v (by tauto), fun u hu' hn => hu v (by tauto) u (by tauto) hn, ?_⟩
      rintro ((hh | ⟨_, hh⟩) | ⟨hh, _⟩)
      · exact ha v (by tauto) hh
      · exact (ho v hh).1 (by tauto)
      · simp at hh


theorem add_ok_iff {s : State} {cs reg : List CostFn} (h : Inv s cs reg) (c : CostFn) :
    (add s c).2 = none ↔ ((∀ c' ∈ cs, c'.name = c.name → c' = c) ∧ c.weight.optimVars = [] ∧
      (∀ v ∈ c.vars, v.dtype = s.dtype) ∧
      (∀ v ∈ c.vars, ∀ u, u ∈ c.vars ∨ Uses reg u → u.name = v.name → u = v) ∧
      (∀ v ∈ c.optims, v ∉ c.auxs ∧ ¬ UsesAux reg v) ∧ (∀ v ∈ c.auxs, ¬ UsesOptim reg v)) := by
  unfold add
  cases hg : s.costFns.get? c.name with
  | some d =>
    rw [h.costs] at hg
    have hd := (get?_costs cs h.names _ _).1 hg
    by_cases e : c = d
    · subst e
      simp only [ne_eq, not_true_eq_false, if_false]
      rw [addBody_acc h.rg h.nowopt h.dty (h.weight_has _)]
      constructor
      · intro hh
        refine ⟨?_, hh⟩
        intro c' hc' hn
        have := (get?_costs cs h.names c.name c').2 ⟨hc', hn⟩
        rw [hg] at this; simpa using this.symm
      · exact fun hh => hh.2
    · simp only [ne_eq, e, not_false_eq_true, if_true]
      constructor
      · simp
      · intro hh; exact absurd (hh.1 d hd.1 hd.2).symm e
  | none =>
    have hnew : ∀ c' ∈ cs, c'.name ≠ c.name := by
      intro c' hc' hn
      have := (get?_costs cs h.names c.name c').2 ⟨hc', hn⟩
      rw [h.costs] at hg
      rw [hg] at this; simp at this
    simp only
    rw [addBody_acc (s := { s with costFns := s.costFns.set c.name c }) (reg := reg)
      (h.rg.congr rfl rfl rfl rfl rfl rfl rfl) h.nowopt h.dty (h.weight_has _)]
    constructor
    · exact fun hh => ⟨fun c' hc' hn => absurd hn (hnew c' hc'), hh⟩
    · exact fun hh => hh.2

theorem addBody_inv {s : State} {cs reg : List CostFn} {c : CostFn} {cs' : List CostFn}
    (h : Inv s cs reg) (s1 : State) (h1 : s1.costFns = cs'.map (fun c => (c.name, c)))
    (hnd : (cs'.map CostFn.name).Nodup) (hsub : ∀ d ∈ cs', d ∈ reg ++ [c])
    (hrg : Reg s1 (usage reg)) (hw : s1.cfForWeights = s.cfForWeights) (hdt : s1.dtype = s.dtype)
    (hv : s1.version = s.version)
    (hok : (addBody s1 c).2 = none) :
    Inv (addBody s1 c).1 cs' (reg ++ [c]) ∧ (addBody s1 c).1.version = s.version + 1 ∧
      (addBody s1 c).1.dtype = s.dtype := by
  have hwh : (∃ l, s1.cfForWeights.get? c.weight = some l) ↔ c.weight ∈ reg.map CostFn.weight := by
    rw [hw]; exact h.weight_has _
  have hdty : ∀ d ∈ reg, ∀ v ∈ d.vars, v.dtype = s1.dtype := by rw [hdt]; exact h.dty
  have acc := (addBody_acc hrg h.nowopt hdty hwh).1 hok
  obtain ⟨r, ec, ev, ed, ew, en⟩ := (addBody_core hrg h.nowopt hwh).2 hok
  refine ⟨?_, by rw [ev, hv], by rw [ed, hdt]⟩
  constructor
  · exact r
  · rw [ec, h1]
  · exact hnd
  · exact hsub
  · intro d hd
    rcases List.mem_append.1 hd with hd | hd
    · exact h.nowopt d hd
    · simp at hd; subst hd; exact acc.1
  · intro d hd v hv
    rw [ed]
    rcases List.mem_append.1 hd with hd | hd
    · rw [hdt]; exact h.dty d hd v hv
    · simp at hd; subst hd; exact acc.2.1 v hv
  · intro w d
    rw [ew, hw]
    have hc := h.wcnt w d
    by_cases e : c.weight = w
    · subst e
      simp only [if_true, cntC, List.count_append, List.count_singleton]
      by_cases e2 : d = c
      · subst e2
        simp only [if_true] at hc
        cases hg : s.cfForWeights.get? d.weight with
        | none => rw [hg] at hc; simp [cntC] at hc ⊢; omega
        | some l => rw [hg] at hc; simp [cntC] at hc ⊢; omega
      · cases hg : s.cfForWeights.get? c.weight with
        | none => rw [hg] at hc; simp [cntC, e2, Ne.symm e2] at hc ⊢; assumption
        | some l => rw [hg] at hc; simp [cntC, e2, Ne.symm e2] at hc ⊢; assumption
    · simp only [e, if_false]
      rw [hc]
      by_cases e2 : d = c
      · subst e2; simp [e]
      · simp [List.count_append, List.count_singleton, Ne.symm e2]
  · intro w
    rw [ew, hw]
    split
    · simp
    · exact h.wne w
  · apply en; rw [hw]; exact h.wnod

theorem add_inv {s : State} {cs reg : List CostFn} (h : Inv s cs reg) {c : CostFn}
    (hok : (add s c).2 = none) :
    Inv (add s c).1 (if c ∈ cs then cs else cs ++ [c]) (reg ++ [c]) ∧
      (add s c).1.version = s.version + 1 ∧ (add s c).1.dtype = s.dtype := by
  have acc := (add_ok_iff h c).1 hok
  unfold add at hok ⊢
  cases hg : s.costFns.get? c.name with
  | some d =>
    have hg' := hg
    rw [h.costs] at hg'
    have hd := (get?_costs cs h.names _ _).1 hg'
    have e := acc.1 d hd.1 hd.2
    subst e
    simp only [hg, ne_eq, not_true_eq_false, if_false] at hok ⊢
    rw [if_pos hd.1]
    exact addBody_inv h s h.costs h.names (fun x hx => List.mem_append_left _ (h.sub x hx)) h.rg
      rfl rfl rfl hok
  | none =>
    simp only [hg] at hok ⊢
    have hnew : ∀ c' ∈ cs, c'.name ≠ c.name := by
      intro c' hc' hn
      have := (get?_costs cs h.names c.name c').2 ⟨hc', hn⟩
      rw [h.costs] at hg
      rw [hg] at this; simp at this
    have hnm : c ∉ cs := fun hc => hnew c hc rfl
    rw [if_neg hnm]
    refine addBody_inv (s := s) (cs := cs) h _ ?_ ?_ ?_ (h.rg.congr rfl rfl rfl rfl rfl rfl rfl)
      rfl rfl rfl hok
    · simp only []
      rw [Dict.set_eq_append _ hg, h.costs]; simp
    · rw [List.map_append, List.nodup_append]
      refine ⟨h.names, by simp, ?_⟩
      intro a ha b hb
      obtain ⟨d, hd, rfl⟩ := List.mem_map.1 ha
      simp at hb; subst hb
      exact hnew d hd
    · intro x hx
      rcases List.mem_append.1 hx with hx | hx
      · exact List.mem_append_left _ (h.sub x hx)
      · exact List.mem_append_right _ hx

theorem usage_erase (reg : List CostFn) (c : CostFn)
    (hw : c.weight ∈ (reg.erase c).map CostFn.weight) :
    unbumps (unbumps (usage reg) .optim (.cost c) c.optimVars) .aux (.cost c) c.auxVars
      = usage (reg.erase c) := by
  have hw' : c.weight ∈ reg.map CostFn.weight := by
    obtain ⟨d, hd, e⟩ := List.mem_map.1 hw
    exact List.mem_map.2 ⟨d, List.mem_of_mem_erase hd, e⟩
  funext k v f
  cases k <;> cases f with
  | cost d =>
    by_cases e : d = c
    · subst e; simp [unbumps, usage, Nat.sub_mul]
    · simp [unbumps, usage, e, List.count_erase_of_ne e]
  | weight w =>
    by_cases e : w = c.weight
    · subst e
      simp only [unbumps, usage, hw, hw', if_true]; simp
    · have : w ∈ reg.map CostFn.weight ↔ w ∈ (reg.erase c).map CostFn.weight := by
        constructor
        · intro hm
          obtain ⟨d, hd, e'⟩ := List.mem_map.1 hm
          refine List.mem_map.2 ⟨d, (List.mem_erase_of_ne ?_).2 hd, e'⟩
          rintro rfl; exact e e'.symm
        · intro hm
          obtain ⟨d, hd, e'⟩ := List.mem_map.1 hm
          exact List.mem_map.2 ⟨d, List.mem_of_mem_erase hd, e'⟩
      simp only [unbumps, usage, this]; simp

theorem usage_erase' (reg : List CostFn) (c : CostFn) (hc : c ∈ reg)
    (hw : c.weight ∉ (reg.erase c).map CostFn.weight) :
    unbumps (unbumps (unbumps (usage reg) .optim (.cost c) c.optimVars) .aux (.cost c) c.auxVars)
      .aux (.weight c.weight) c.weight.auxVars = usage (reg.erase c) := by
  have hw' : c.weight ∈ reg.map CostFn.weight := List.mem_map_of_mem hc
  funext k v f
  cases k <;> cases f with
  | cost d =>
    by_cases e : d = c
    · subst e; simp [unbumps, usage, Nat.sub_mul]
    · simp [unbumps, usage, e, List.count_erase_of_ne e]
  | weight w =>
    by_cases e : w = c.weight
    · subst e
      simp only [unbumps, usage, hw, hw', if_true, if_false]; simp
    · have : w ∈ reg.map CostFn.weight ↔ w ∈ (reg.erase c).map CostFn.weight := by
        constructor
        · intro hm
          obtain ⟨d, hd, e'⟩ := List.mem_map.1 hm
          refine List.mem_map.2 ⟨d, (List.mem_erase_of_ne ?_).2 hd, e'⟩
          rintro rfl; exact e e'.symm
        · intro hm
          obtain ⟨d, hd, e'⟩ := List.mem_map.1 hm
          exact List.mem_map.2 ⟨d, List.mem_of_mem_erase hd, e'⟩
      simp only [unbumps, usage, this, e]; simp [e]

theorem del_costs (cs : List CostFn) (n : Nat) :
    Dict.del (cs.map (fun c => (c.name, c))) n =
      (cs.filter (fun c => decide (c.name ≠ n))).map (fun c => (c.name, c)) := by
  simp only [Dict.del, List.filter_map]; rfl

/-- The registration list after erasing name `n`. -/
def regErase (cs reg : List CostFn) (n : Nat) : List CostFn :=
  match cs.find? (fun c => decide (c.name = n)) with
  | none => reg
  | some c => reg.erase c

theorem erase_inv {s : State} {cs reg : List CostFn} (h : Inv s cs reg) (n : Nat) :
    ∃ s', erase s n = (s', none) ∧
      Inv s' (cs.filter (fun c => decide (c.name ≠ n))) (regErase cs reg n) ∧
      s'.version = s.version + 1 ∧ s'.dtype = s.dtype := by
  unfold erase
  simp only []
  cases hg : s.costFns.get? n with
  | none =>
    have hno : ∀ c ∈ cs, c.name ≠ n := by
      intro c hc hn
      have := (get?_costs cs h.names n c).2 ⟨hc, hn⟩
      rw [h.costs] at hg
      rw [hg] at this; simp at this
    have hf : cs.filter (fun c => decide (c.name ≠ n)) = cs := by
      apply List.filter_eq_self.2; intro c hc; simpa using hno c hc
    have hr : regErase cs reg n = reg := by
      unfold regErase
      rw [List.find?_eq_none.2]; intro c hc; simpa using hno c hc
    refine ⟨_, rfl, ?_, rfl, rfl⟩
    rw [hf, hr]
    exact ⟨h.rg.congr rfl rfl rfl rfl rfl rfl rfl, h.costs, h.names, h.sub, h.nowopt, h.dty, h.wcnt,
      h.wne, h.wnod⟩
  | some c =>
    have hg' := hg
    rw [h.costs] at hg'
    obtain ⟨hcs, hcn⟩ := (get?_costs cs h.names _ _).1 hg'
    have hreg := h.sub c hcs
    have hfind : regErase cs reg n = reg.erase c := by
      unfold regErase
      cases hf : cs.find? (fun c => decide (c.name = n)) with
      | none =>
        have := List.find?_eq_none.1 hf c hcs
        simp [hcn] at this
      | some d =>
        have h1 := List.mem_of_find?_eq_some hf
        have h2 := List.find?_some hf
        have := (get?_costs cs h.names n d).2 ⟨h1, by simpa using h2⟩
        rw [hg'] at this
        simp at this; subst this; rfl
    rw [hfind]
    have hr0 : Reg ({ s with version := s.version + 1 } : State) (usage reg) :=
      h.rg.congr rfl rfl rfl rfl rfl rfl rfl
    obtain ⟨s1, e1, r1, f1⟩ := eraseFnVars_reg (f := .cost c) (k := .optim) (vs := c.optimVars) hr0
      (by simp) (by
        intro v; simp only [usage]
        have := List.count_pos_iff.2 hreg
        exact Nat.le_mul_of_pos_left _ this)
    obtain ⟨s2, e2, r2, f2⟩ := eraseFnVars_reg (f := .cost c) (k := .aux) (vs := c.auxVars) r1
      (by simp) (by
        intro v; simp only [usage, unbumps]
        have := List.count_pos_iff.2 hreg
        simp
        exact Nat.le_mul_of_pos_left _ this)
    simp only [e1, e2, Res.andThen]
    have F := f1.trans f2
    have w2 : s2.cfForWeights = s.cfForWeights := F.cfw
    obtain ⟨l, hl⟩ := (h.weight_has c.weight).2 (List.mem_map_of_mem hreg)
    have hlc : ∀ d, l.count d = if d.weight = c.weight then reg.count d else 0 := by
      intro d; have := h.wcnt c.weight d; rw [hl] at this; exact this
    have hcl : c ∈ l := by
      apply List.count_pos_iff.1; rw [hlc]; simp only [if_true]; exact List.count_pos_iff.2 hreg
    have hlc' : ∀ d, (l.erase c).count d =
        if d.weight = c.weight then (reg.erase c).count d else 0 := by
      intro d
      by_cases e : d = c
      · subst e; simp [List.count_erase_self, hlc]
      · rw [List.count_erase_of_ne e, List.count_erase_of_ne e, hlc]
    have hemp : l.erase c = [] ↔ c.weight ∉ (reg.erase c).map CostFn.weight := by
      constructor
      · intro he hm
        obtain ⟨d, hd, e⟩ := List.mem_map.1 hm
        have := hlc' d
        rw [he] at this
        have h2 := List.count_pos_iff.2 hd
        simp [e] at this; omega
      · intro hm
        cases hle : l.erase c with
        | nil => rfl
        | cons d r =>
          have := hlc' d
          rw [hle] at this
          simp only [List.count_cons_self] at this
          split at this
          · next e =>
            exact absurd (List.mem_map.2 ⟨d, List.count_pos_iff.1 (by omega), e⟩) hm
          · omega
    have hsub' : ∀ d ∈ cs.filter (fun c => decide (c.name ≠ n)), d ∈ reg.erase c := by
      intro d hd
      obtain ⟨hd1, hd2⟩ := List.mem_filter.1 hd
      refine (List.mem_erase_of_ne ?_).2 (h.sub d hd1)
      rintro rfl; simp [hcn] at hd2
    have hnm' : ((cs.filter (fun c => decide (c.name ≠ n))).map CostFn.name).Nodup :=
      h.names.sublist (List.Sublist.map _ List.filter_sublist)
    have hwc : ∀ (dd : Dict Weight (List CostFn)),
        (∀ w, dd.get? w = if c.weight = w then (if l.erase c = [] then none else some (l.erase c))
          else s.cfForWeights.get? w) →
        (∀ w d, cntC (dd.get? w) d = if d.weight = w then (reg.erase c).count d else 0) ∧
        (∀ w, dd.get? w ≠ some []) := by
      intro dd hdd
      constructor
      · intro w d
        rw [hdd]
        by_cases e : c.weight = w
        · subst e
          rw [← hlc' d]
          by_cases e2 : l.erase c = []
          · simp [e2, cntC]
          · simp [e2, cntC]
        · simp only [e, if_false, h.wcnt]
          by_cases e2 : d = c
          · subst e2; simp [e]
          · rw [List.count_erase_of_ne e2]
      · intro w
        rw [hdd]
        split
        · split
          · simp
          · next e => simpa using e
        · exact h.wne w
    by_cases he : l.erase c = []
    · have hwm := hemp.1 he
      have hwo : c.weight.optimVars = [] := h.nowopt c hreg
      have r2' : Reg ({ s2 with cfForWeights := s2.cfForWeights.set c.weight (l.erase c) } : State)
          _ := r2.congr rfl rfl rfl rfl rfl rfl rfl
      obtain ⟨s3, e3, r3, f3⟩ := eraseFnVars_reg (f := .weight c.weight) (k := .aux)
        (vs := c.weight.auxVars) r2' (by simp) (by
          intro v; simp only [usage, unbumps]
          have := List.mem_map_of_mem (f := CostFn.weight) hreg
          simp only [this, if_true]; simp)
      rw [usage_erase' reg c hreg hwm] at r3
      have hew : eraseWeight s2 c =
          ({ s3 with cfForWeights := s3.cfForWeights.del c.weight }, none) := by
        unfold eraseWeight
        rw [w2] at e3 ⊢
        simp only [hl, hcl, not_true_eq_false, if_false, hwo, eraseFnVars, Res.andThen, he,
          List.length_nil, if_true] at e3 ⊢
        rw [e3]
      simp only [hew]
      refine ⟨_, rfl, ?_, ?_, ?_⟩
      · have hdd := hwc (s3.cfForWeights.del c.weight) (by
          intro w
          rw [f3.cfw, w2]
          simp only [Dict.get?_del, Dict.get?_set, he, if_true]
          split <;> rfl)
        refine ⟨r3.congr rfl rfl rfl rfl rfl rfl rfl, ?_, hnm', hsub', ?_, ?_, hdd.1, hdd.2, ?_⟩
        · simp only []
          rw [f3.costFns, F.costFns]
          simp only []
          rw [h.costs, del_costs]
        · intro d hd; exact h.nowopt d (List.mem_of_mem_erase hd)
        · intro d hd v hv
          simp only [f3.dtype, F.dtype]
          exact h.dty d (List.mem_of_mem_erase hd) v hv
        · simp only [f3.cfw, w2]
          exact Dict.nodup_del (Dict.nodup_set h.wnod _ _) _
      · simp only [f3.version, F.version]
      · simp only [f3.dtype, F.dtype]
    · have hwm : c.weight ∈ (reg.erase c).map CostFn.weight := by
        apply Classical.byContradiction; intro hh; exact he (hemp.2 hh)
      rw [usage_erase reg c hwm] at r2
      have hew : eraseWeight s2 c =
          ({ s2 with cfForWeights := s2.cfForWeights.set c.weight (l.erase c) }, none) := by
        unfold eraseWeight
        have hlen : (l.erase c).length ≠ 0 := by simpa using he
        simp only [w2, hl, hcl, not_true_eq_false, if_false, hlen]
      simp only [hew]
      refine ⟨_, rfl, ?_, F.version, F.dtype⟩
      have hdd := hwc (s2.cfForWeights.set c.weight (l.erase c)) (by
        intro w
        rw [w2]
        simp only [Dict.get?_set, he, if_false])
      refine ⟨r2.congr rfl rfl rfl rfl rfl rfl rfl, ?_, hnm', hsub', ?_, ?_, hdd.1, hdd.2, ?_⟩
      · simp only []
        rw [F.costFns]
        simp only []
        rw [h.costs, del_costs]
      · intro d hd; exact h.nowopt d (List.mem_of_mem_erase hd)
      · intro d hd v hv
        simp only [F.dtype]
        exact h.dty d (List.mem_of_mem_erase hd) v hv
      · simp only [w2]
        exact Dict.nodup_set h.wnod _ _


/-! ### Lifting to histories -/

theorem specCall_erase_eq {cs : List CostFn} (hn : (cs.map CostFn.name).Nodup) (n : Nat) :
    regErase cs cs n = cs.filter (fun c => decide (c.name ≠ n)) := by
  unfold regErase
  induction cs with
  | nil => simp
  | cons c cs ih =>
    simp only [List.map_cons, List.nodup_cons] at hn
    by_cases e : c.name = n
    · have hf : cs.filter (fun c => decide (c.name ≠ n)) = cs := by
        apply List.filter_eq_self.2
        intro d hd
        have : d.name ≠ n := fun h => hn.1 (List.mem_map.2 ⟨d, hd, h.trans e.symm⟩)
        simpa using this
      simp only [List.find?_cons, e, decide_true, List.erase_cons_head, List.filter_cons, ne_eq,
        not_true_eq_false, decide_false, Bool.false_eq_true, if_false]
      exact hf.symm
    · have ih' := ih hn.2
      simp only [List.find?_cons, e, decide_false]
      cases hf : cs.find? (fun c => decide (c.name = n)) with
      | none => simp only [hf] at ih' ⊢; rw [List.filter_cons, ← ih']; simp [e]
      | some d =>
        simp only [hf] at ih' ⊢
        have hd : d.name = n := by have := List.find?_some hf; simpa using this
        have : c ≠ d := by rintro rfl; exact e hd
        rw [List.erase_cons, if_neg (by simpa using this), ih']
        simp [e]

theorem call_inv {s : State} {cs reg : List CostFn} (h : Inv s cs reg) {c : Call}
    (hok : (call s c).2 = none) :
    ∃ reg', Inv (call s c).1 (specCall cs c) reg' ∧ (call s c).1.dtype = s.dtype ∧
      (reg = cs → (∀ f, c = .add f → f ∉ cs) → reg' = specCall cs c) := by
  cases c with
  | add f =>
    obtain ⟨i, _, d⟩ := add_inv h hok
    refine ⟨_, i, d, ?_⟩
    rintro rfl hf
    have := hf f rfl
    simp [specCall, this]
  | erase n =>
    obtain ⟨s', e, i, _, d⟩ := erase_inv h n
    refine ⟨regErase cs reg n, ?_, ?_, ?_⟩
    · simp only [call, e]; exact i
    · simp only [call, e]; exact d
    · rintro rfl _
      exact specCall_erase_eq h.names n

theorem run_inv {s : State} {cs reg : List CostFn} (h : Inv s cs reg) {hist : List Call}
    (hok : Succeeds s hist) :
    ∃ reg', Inv (run s hist) (specRun cs hist) reg' ∧ (run s hist).dtype = s.dtype ∧
      (reg = cs → NoReAdd cs hist → reg' = specRun cs hist) := by
  induction hist generalizing s cs reg with
  | nil => exact ⟨reg, h, rfl, fun e _ => e⟩
  | cons c hist ih =>
    obtain ⟨r1, i1, d1, e1⟩ := call_inv h hok.1
    obtain ⟨r2, i2, d2, e2⟩ := ih i1 hok.2
    exact ⟨r2, i2, d2.trans d1, fun e hn => e2 (e1 e hn.1) hn.2⟩

theorem Inv.hasOptim {s : State} {cs reg : List CostFn} (h : Inv s cs reg) (n : Nat) (v : Var) :
    s.optimVars.get? n = some v ↔ v.name = n ∧ UsesOptim reg v := by
  rw [← used_optim_iff]; exact h.rg.typ .optim (by simp) n v

theorem Inv.hasAux {s : State} {cs reg : List CostFn} (h : Inv s cs reg) (n : Nat) (v : Var) :
    s.auxVars.get? n = some v ↔ v.name = n ∧ UsesAux reg v := by
  rw [← used_aux_iff]; exact h.rg.typ .aux (by simp) n v

/-! ### Frame facts that hold in every state, also for failing calls -/

theorem setFnMap_version (s : State) (k : Kind) (m) : (s.setFnMap k m).version = s.version := by
  cases k <;> rfl

theorem setTyped_version (s : State) (k : Kind) (m) : (s.setTyped k m).version = s.version := by
  cases k <;> rfl

theorem addVarTail_version (s : State) (f : Fn) (k : Kind) (v : Var) :
    (addVarTail s f k v).1.version = s.version := by
  unfold addVarTail
  simp only []
  generalize hs1 : s.setTyped k ((s.typed k).set v.name v) = s1
  have h1 : s1.version = s.version := by rw [← hs1, setTyped_version]
  have h2 : (if s1.mixed && !(s1.fnMap k).has v then s1.setFnMap k ((s1.fnMap k).set v []) else s1
      : State).version = s.version := by
    split
    · rw [setFnMap_version, h1]
    · exact h1
  revert h2
  generalize (if s1.mixed && !(s1.fnMap k).has v then s1.setFnMap k ((s1.fnMap k).set v []) else s1
      : State) = s2
  intro h2
  split
  · exact h2
  · simp only [setFnMap_version, h2]

theorem addVar_version (s : State) (f : Fn) (k : Kind) (v : Var) :
    (addVar s f k v).1.version = s.version := by
  unfold addVar
  split
  · rfl
  · split
    · split
      · rfl
      · rw [addVarTail_version]
    · simp only []
      split
      · rfl
      · rw [addVarTail_version, setFnMap_version]

theorem addFnVars_version (s : State) (f : Fn) (k : Kind) (vs : List Var) :
    (addFnVars s f k vs).1.version = s.version := by
  induction vs generalizing s with
  | nil => rfl
  | cons v vs ih =>
    simp only [addFnVars]
    have h := addVar_version s f k v
    generalize addVar s f k v = r at h
    obtain ⟨s1, e⟩ := r
    cases e with
    | none => simp only [Res.andThen, ih]; exact h
    | some e => exact h

theorem andThen_version {r : Res} {k : State → Res} {n : Nat} (h1 : r.1.version = n)
    (h2 : ∀ s, s.version = n → (k s).1.version = n) : (r.andThen k).1.version = n := by
  obtain ⟨s, e⟩ := r
  cases e with
  | none => exact h2 s h1
  | some e => exact h1

theorem addBody_version (s : State) (c : CostFn) : (addBody s c).1.version = s.version + 1 := by
  unfold addBody
  refine andThen_version (by rw [addFnVars_version]) ?_
  intro s1 h1
  refine andThen_version (by rw [addFnVars_version]; exact h1) ?_
  intro s2 h2
  refine andThen_version ?_ ?_
  · unfold addWeight
    split
    · exact h2
    · refine andThen_version (by rw [addFnVars_version]; exact h2) ?_
      intro s3 h3
      refine andThen_version (by rw [addFnVars_version]; exact h3) ?_
      intro s4 h4
      simp only []
      split <;> exact h4
  · intro s3 h3
    refine andThen_version ?_ ?_
    · unfold linkWeight
      split <;> exact h3
    · intro s4 h4
      unfold dualCheck
      split
      · exact h4
      · split
        · exact h4
        · split <;> exact h4

theorem add_version (s : State) (c : CostFn) :
    (add s c = (s, some .valueError)) ∨ (add s c).1.version = s.version + 1 := by
  unfold add
  split
  · split
    · exact Or.inl rfl
    · exact Or.inr (addBody_version _ _)
  · exact Or.inr (addBody_version _ _)

theorem eraseVar_version (s : State) (f : Fn) (k : Kind) (v : Var) :
    (eraseVar s f k v).1.version = s.version := by
  unfold eraseVar
  split
  · rfl
  · split
    · rfl
    · simp only []
      split
      · simp only [setFnMap_version]
      · split
        · simp only [setFnMap_version]
        · split
          · simp only [setFnMap_version]
          · simp only [setTyped_version, setFnMap_version]

theorem eraseFnVars_version (s : State) (f : Fn) (k : Kind) (vs : List Var) :
    (eraseFnVars s f k vs).1.version = s.version := by
  induction vs generalizing s with
  | nil => rfl
  | cons v vs ih =>
    simp only [eraseFnVars]
    have h := eraseVar_version s f k v
    generalize eraseVar s f k v = r at h
    obtain ⟨s1, e⟩ := r
    cases e with
    | none => simp only [Res.andThen, ih]; exact h
    | some e => exact h

theorem erase_version (s : State) (n : Nat) : (erase s n).1.version = s.version + 1 := by
  unfold erase
  simp only []
  split
  · rfl
  · refine andThen_version (by rw [eraseFnVars_version]) ?_
    intro s1 h1
    refine andThen_version (by rw [eraseFnVars_version]; exact h1) ?_
    intro s2 h2
    refine andThen_version ?_ ?_
    · unfold eraseWeight
      split
      · exact h2
      · split
        · exact h2
        · simp only []
          split
          · refine andThen_version (by rw [eraseFnVars_version]; exact h2) ?_
            intro s3 h3
            refine andThen_version (by rw [eraseFnVars_version]; exact h3) ?_
            intro s4 h4
            exact h4
          · exact h2
    · intro s3 h3; exact h3

/-! ### Re-adding -/

theorem set_same {κ α : Type} [DecidableEq κ] {d : Dict κ α} {k : κ} {a : α}
    (h : d.get? k = some a) : d.set k a = d := by
  induction d with
  | nil => simp [Dict.get?] at h
  | cons p d ih =>
    obtain ⟨k1, b⟩ := p
    simp only [Dict.get?] at h
    by_cases e : k1 = k
    · simp only [e, if_true, Option.some.injEq] at h; subst e; subst h; simp [Dict.set]
    · simp only [e, if_false] at h; simp [Dict.set, e, ih h]

/-- Same dictionaries of variables. -/
structure SameVars (s s' : State) : Prop where
  optim : s'.optimVars = s.optimVars
  aux : s'.auxVars = s.auxVars
  all : s'.allVars = s.allVars

theorem addVar_same {s : State} {U : Usage} (h : Reg s U) {f : Fn} {k : Kind} {v : Var}
    (hk : k ≠ .cwOptim) (hd : v.dtype = s.dtype) (hu : Used U k v) :
    SameVars s (addVar s f k v).1 := by
  have hall : s.allVars.get? v.name = some v := by
    refine (h.all _ _).2 ⟨rfl, ?_⟩
    cases k with
    | cwOptim => exact absurd rfl hk
    | optim => exact Or.inl hu
    | aux => exact Or.inr hu
  have htyp : (s.typed k).get? v.name = some v := (h.typ k hk _ _).2 ⟨rfl, hu⟩
  obtain ⟨l, hl⟩ := (h.used_iff hk v).1 hu
  unfold addVar
  simp only [hd, ne_eq, not_true_eq_false, if_false, hall]
  cases k with
  | cwOptim => exact absurd rfl hk
  | optim =>
    simp only [State.typed] at htyp
    simp only [State.fnMap] at hl
    simp only [addVarTail, State.setTyped, h.mixed, Bool.false_and, Bool.false_eq_true, if_false,
      State.fnMap, State.typed, State.setFnMap, hl]
    exact ⟨set_same htyp, rfl, rfl⟩
  | aux =>
    simp only [State.typed] at htyp
    simp only [State.fnMap] at hl
    simp only [addVarTail, State.setTyped, h.mixed, Bool.false_and, Bool.false_eq_true, if_false,
      State.fnMap, State.typed, State.setFnMap, hl]
    exact ⟨rfl, set_same htyp, rfl⟩

theorem addFnVars_same {s : State} {U : Usage} (h : Reg s U) {f : Fn} {k : Kind} {vs : List Var}
    (hk : k ≠ .cwOptim) (hd : ∀ v ∈ vs, v.dtype = s.dtype) (hu : ∀ v ∈ vs, Used U k v)
    (hok : (addFnVars s f k vs).2 = none) : SameVars s (addFnVars s f k vs).1 := by
  induction vs generalizing s U with
  | nil => exact ⟨rfl, rfl, rfl⟩
  | cons v vs ih =>
    simp only [addFnVars] at hok ⊢
    obtain ⟨h1, h2⟩ := Res.andThen_ok.1 hok
    rw [Res.andThen_of_ok h1]
    obtain ⟨r1, f1⟩ := addVar_reg h hk h1
    have s1 := addVar_same h (f := f) hk (hd v List.mem_cons_self) (hu v List.mem_cons_self)
    have s2 := ih r1 (by intro u hh; rw [f1.dtype]; exact hd u (List.mem_cons_of_mem _ hh))
      (by intro u hh; exact used_bump.2 (Or.inl (hu u (List.mem_cons_of_mem _ hh)))) h2
    exact ⟨s2.optim.trans s1.optim, s2.aux.trans s1.aux, s2.all.trans s1.all⟩

theorem readd_same {s : State} {cs reg : List CostFn} (h : Inv s cs reg) {c : CostFn} (hc : c ∈ cs) :
    (add s c).2 = none ∧ SameVars s (add s c).1 := by
  have hreg := h.sub c hc
  have hu : ∀ v ∈ c.vars, Uses reg v := fun v hv => ⟨c, hreg, hv⟩
  have hok : (add s c).2 = none := by
    rw [add_ok_iff h]
    refine ⟨?_, h.nowopt c hreg, h.dty c hreg, ?_, ?_, ?_⟩
    · intro c' hc' hn
      have a := (get?_costs cs h.names c.name c').2 ⟨hc', hn⟩
      have b := (get?_costs cs h.names c.name c).2 ⟨hc, rfl⟩
      rw [a] at b; simpa using b
    · rintro v hv u (hu' | hu') hn
      · exact h.uniq (hu u hu') (hu v hv) hn
      · exact h.uniq hu' (hu v hv) hn
    · intro v hv
      have ho : UsesOptim reg v := ⟨c, hreg, hv⟩
      exact ⟨fun ha => h.disj ho ⟨c, hreg, ha⟩, fun ha => h.disj ho ha⟩
    · intro v hv ho; exact h.disj ho ⟨c, hreg, hv⟩
  refine ⟨hok, ?_⟩
  have hg : s.costFns.get? c.name = some c := by
    rw [h.costs]; exact (get?_costs cs h.names _ _).2 ⟨hc, rfl⟩
  unfold add at hok ⊢
  simp only [hg, ne_eq, not_true_eq_false, if_false] at hok ⊢
  unfold addBody at hok ⊢
  simp only [] at hok ⊢
  have hr0 : Reg ({ s with version := s.version + 1 } : State) (usage reg) :=
    h.rg.congr rfl rfl rfl rfl rfl rfl rfl
  have hsv0 : SameVars s { s with version := s.version + 1 } := ⟨rfl, rfl, rfl⟩
  have hd0 : ({ s with version := s.version + 1 } : State).dtype = s.dtype := rfl
  have hw0 : ({ s with version := s.version + 1 } : State).cfForWeights = s.cfForWeights := rfl
  generalize ({ s with version := s.version + 1 } : State) = s0 at hr0 hok hsv0 hd0 hw0 ⊢
  obtain ⟨h1, hok⟩ := Res.andThen_ok.1 hok
  rw [Res.andThen_of_ok h1]
  obtain ⟨r1, f1⟩ := addFnVars_reg hr0 (by simp) h1
  have sv1 := addFnVars_same hr0 (f := .cost c) (k := .optim) (vs := c.optimVars) (by simp)
    (by intro v hv; rw [hd0]; exact h.dty c hreg v (by simp [CostFn.vars, CostFn.optims, hv]))
    (by intro v hv; rw [used_optim_iff]; exact ⟨c, hreg, hv⟩) h1
  generalize (addFnVars s0 (.cost c) .optim c.optimVars).1 = s1 at r1 f1 sv1 hok ⊢
  obtain ⟨h2, hok⟩ := Res.andThen_ok.1 hok
  rw [Res.andThen_of_ok h2]
  obtain ⟨r2, f2⟩ := addFnVars_reg r1 (by simp) h2
  have sv2 := addFnVars_same r1 (f := .cost c) (k := .aux) (vs := c.auxVars) (by simp)
    (by intro v hv; rw [f1.dtype, hd0]
        exact h.dty c hreg v (by simp [CostFn.vars, CostFn.auxs, hv]))
    (by intro v hv; rw [used_bumps, used_aux_iff]
        exact Or.inl ⟨c, hreg, by simp [CostFn.auxs, hv]⟩) h2
  generalize (addFnVars s1 (.cost c) .aux c.auxVars).1 = s2 at r2 f2 sv2 hok ⊢
  obtain ⟨l, hl⟩ := (h.weight_has c.weight).2 (List.mem_map_of_mem hreg)
  have w2 : s2.cfForWeights = s.cfForWeights := (f2.cfw.trans f1.cfw).trans hw0
  have haw : addWeight s2 c = (s2, none) := by
    unfold addWeight; simp [Dict.has, w2, hl]
  rw [haw]
  have hsv : SameVars s s2 := ⟨(sv2.optim.trans sv1.optim).trans hsv0.optim,
    (sv2.aux.trans sv1.aux).trans hsv0.aux, (sv2.all.trans sv1.all).trans hsv0.all⟩
  simp only [Res.andThen, linkWeight, w2, hl]
  unfold dualCheck
  have hsv' : SameVars s
      { s2 with cfForWeights := s.cfForWeights.set c.weight (l ++ [c]) } :=
    ⟨hsv.optim, hsv.aux, hsv.all⟩
  split
  · exact hsv'
  · split
    · exact hsv'
    · split <;> exact hsv'

end Verif.Objective
