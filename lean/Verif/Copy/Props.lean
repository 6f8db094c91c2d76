import Verif.Copy.Model
import Verif.Objective.Props
import Mathlib.Data.List.Nodup
/-!
# Properties of `Objective.copy` (C11)
-/
namespace Verif.Copy
open Verif Verif.Objective

/-! ### Helper lemmas -/

/-- Same attributes up to identity: names and dtypes agree position by position. -/
def SameShape (l l' : List Var) : Prop := List.Forall₂ (fun v v' : Var => v'.name = v.name ∧ v'.dtype = v.dtype) l l'

theorem copyVars_shape (next : Nat) (l : List Var) : SameShape l (copyVars next l).1 := by
  induction l generalizing next with
  | nil => exact .nil
  | cons v l ih => exact .cons ⟨rfl, rfl⟩ (ih _)

theorem copyVars_fresh (next : Nat) (l : List Var) :
    next ≤ (copyVars next l).2 ∧ ∀ v ∈ (copyVars next l).1, next ≤ v.id := by
  induction l generalizing next with
  | nil => simp [copyVars]
  | cons v l ih =>
    obtain ⟨a, b⟩ := ih (next + 1)
    refine ⟨by simp only [copyVars]; omega, ?_⟩
    intro u hu
    simp only [copyVars, List.mem_cons] at hu
    rcases hu with rfl | hu
    · simp
    · have := b u hu; omega

theorem copyVars_nil (next : Nat) (l : List Var) (h : l = []) : (copyVars next l).1 = [] := by
  subst h; rfl

theorem SameShape.names {l l' : List Var} (h : SameShape l l') : l'.map Var.name = l.map Var.name := by
  induction h with
  | nil => rfl
  | cons h _ ih => simp [h.1, ih]

theorem SameShape.mem {l l' : List Var} (h : SameShape l l') {v' : Var} (hv : v' ∈ l') :
    ∃ v ∈ l, v'.name = v.name ∧ v'.dtype = v.dtype := by
  induction h with
  | nil => simp at hv
  | cons h _ ih =>
    simp only [List.mem_cons] at hv
    rcases hv with rfl | hv
    · exact ⟨_, List.mem_cons_self, h⟩
    · obtain ⟨v, a, b⟩ := ih hv; exact ⟨v, List.mem_cons_of_mem _ a, b⟩

theorem SameShape.mem' {l l' : List Var} (h : SameShape l l') {v : Var} (hv : v ∈ l) :
    ∃ v' ∈ l', v'.name = v.name ∧ v'.dtype = v.dtype := by
  induction h with
  | nil => simp at hv
  | cons h _ ih =>
    simp only [List.mem_cons] at hv
    rcases hv with rfl | hv
    · exact ⟨_, List.mem_cons_self, h⟩
    · obtain ⟨v, a, b⟩ := ih hv; exact ⟨v, List.mem_cons_of_mem _ a, b⟩

theorem SameShape.append {a a' b b' : List Var} (h : SameShape a a') (h' : SameShape b b') :
    SameShape (a ++ b) (a' ++ b') := List.rel_append h h'

/-- Re-pointing preserves the shape when the dictionary maps names to variables with that name and
the objective's dtype. -/
theorem SameShape.swap {l l' : List Var} (h : SameShape l l') (d : Dict Nat Var) (dt : Nat)
    (hd : ∀ n v, d.get? n = some v → v.name = n ∧ v.dtype = dt) (hl : ∀ v ∈ l, v.dtype = dt) :
    SameShape l (l'.map (swap d)) := by
  induction h with
  | nil => exact .nil
  | @cons v v' l l' h _ ih =>
    refine .cons ?_ (ih (fun u hu => hl u (List.mem_cons_of_mem _ hu)))
    unfold Copy.swap
    cases hg : d.get? v'.name with
    | none => simpa using h
    | some u =>
      obtain ⟨a, b⟩ := hd _ _ hg
      simp only [Option.getD_some]
      exact ⟨a.trans h.1, b.trans (hl v List.mem_cons_self).symm⟩

theorem mem_swap {l : List Var} {d : Dict Nat Var} {v : Var} (h : v ∈ l.map (swap d)) :
    d.get? v.name = some v ∨ (v ∈ l ∧ d.get? v.name = none) ∨ ∃ u ∈ l, d.get? u.name = some v := by
  obtain ⟨u, hu, rfl⟩ := List.mem_map.1 h
  unfold swap
  cases hg : d.get? u.name with
  | none => simp only [Option.getD_none]; exact Or.inr (Or.inl ⟨hu, hg⟩)
  | some w => simp only [Option.getD_some]; exact Or.inr (Or.inr ⟨u, hu, hg⟩)

theorem swap_id {l : List Var} {d : Dict Nat Var} (h : ∀ v ∈ l, d.get? v.name = some v) :
    l.map (swap d) = l := by
  conv_rhs => rw [← List.map_id l]
  apply List.map_congr_left
  intro v hv
  simp [swap, h v hv]

/-- The copy `c'` of a cost function has the same names everywhere. -/
structure Twin (c c' : CostFn) : Prop where
  name : c'.name = c.name
  dim : c'.dim = c.dim
  optim : SameShape c.optimVars c'.optimVars
  aux : SameShape c.auxVars c'.auxVars
  waux : SameShape c.weight.auxVars c'.weight.auxVars
  wopt : c'.weight.optimVars = []

theorem Twin.optims {c c' : CostFn} (h : Twin c c') : SameShape c.optims c'.optims := h.optim
theorem Twin.auxs {c c' : CostFn} (h : Twin c c') : SameShape c.auxs c'.auxs := h.aux.append h.waux
theorem Twin.vars {c c' : CostFn} (h : Twin c c') : SameShape c.vars c'.vars := h.optims.append h.auxs

theorem twin_mem {cs news : List CostFn} (h : List.Forall₂ Twin cs news) {c' : CostFn}
    (hc : c' ∈ news) : ∃ c ∈ cs, Twin c c' := by
  induction h with
  | nil => simp at hc
  | cons h _ ih =>
    simp only [List.mem_cons] at hc
    rcases hc with rfl | hc
    · exact ⟨_, List.mem_cons_self, h⟩
    · obtain ⟨c, a, b⟩ := ih hc; exact ⟨c, List.mem_cons_of_mem _ a, b⟩

theorem copyWeights_spec (next : Nat) (ws : List Weight) :
    next ≤ (copyWeights next ws).2 ∧
    (∀ w ∈ ws, ∃ w', (copyWeights next ws).1.get? w = some w' ∧ SameShape w.auxVars w'.auxVars ∧
      (w.optimVars = [] → w'.optimVars = []) ∧ (∀ v ∈ w'.auxVars, next ≤ v.id)) ∧
    (∀ w w', (copyWeights next ws).1.get? w = some w' → next ≤ w'.id) ∧
    (∀ w1 w2 a b, (copyWeights next ws).1.get? w1 = some a → (copyWeights next ws).1.get? w2 = some b →
      a.id = b.id → w1 = w2) := by
  induction ws generalizing next with
  | nil => simp [copyWeights]
  | cons w ws ih =>
    obtain ⟨i1, i2, i3, i4⟩ := ih (copyWeight next w).2
    have o := copyVars_fresh (next + 1) w.optimVars
    have a := copyVars_fresh (copyVars (next + 1) w.optimVars).2 w.auxVars
    have hle : next + 1 ≤ (copyWeight next w).2 := by simp only [copyWeight]; omega
    refine ⟨by simp only [copyWeights]; omega, ?_, ?_, ?_⟩
    · intro u hu
      by_cases e : w = u
      · subst e
        refine ⟨(copyWeight next w).1, by simp [copyWeights, Dict.get?], copyVars_shape _ _,
          fun h => copyVars_nil _ _ h, ?_⟩
        intro v hv
        have := a.2 v hv; omega
      · have hu' : u ∈ ws := by
          simp only [List.mem_cons] at hu
          rcases hu with rfl | hu
          · exact absurd rfl e
          · exact hu
        obtain ⟨w', b1, b2, b3, b4⟩ := i2 u hu'
        refine ⟨w', by simpa [copyWeights, Dict.get?, e] using b1, b2, b3, ?_⟩
        intro v hv; have := b4 v hv; omega
    · intro u w' h
      by_cases e : w = u
      · subst e
        simp only [copyWeights, Dict.get?, if_true, Option.some.injEq] at h
        subst h; simp [copyWeight]
      · have := i3 u w' (by simpa [copyWeights, Dict.get?, e] using h); omega
    · intro w1 w2 x y h1 h2 hid
      by_cases e1 : w = w1 <;> by_cases e2 : w = w2
      · rw [← e1, ← e2]
      · subst e1
        simp only [copyWeights, Dict.get?, if_true, Option.some.injEq] at h1
        have := i3 w2 y (by simpa [copyWeights, Dict.get?, e2] using h2)
        subst h1; simp [copyWeight] at hid; omega
      · subst e2
        simp only [copyWeights, Dict.get?, if_true, Option.some.injEq] at h2
        have := i3 w1 x (by simpa [copyWeights, Dict.get?, e1] using h1)
        subst h2; simp [copyWeight] at hid; omega
      · exact i4 w1 w2 x y (by simpa [copyWeights, Dict.get?, e1] using h1)
          (by simpa [copyWeights, Dict.get?, e2] using h2) hid

/-- A fresh copy of a cost function, before its weight is set. -/
structure FreshFn (base : Nat) (c f : CostFn) : Prop where
  name : f.name = c.name
  dim : f.dim = c.dim
  optim : SameShape c.optimVars f.optimVars
  aux : SameShape c.auxVars f.auxVars
  fresh : ∀ v ∈ f.optimVars ++ f.auxVars, base ≤ v.id

theorem copyFns_spec (base next : Nat) (hb : base ≤ next) (cs : List CostFn) :
    (copyFns next cs).map Prod.fst = cs ∧ ∀ p ∈ copyFns next cs, FreshFn base p.1 p.2 := by
  induction cs generalizing next with
  | nil => simp [copyFns]
  | cons c cs ih =>
    have o := copyVars_fresh (next + 1) c.optimVars
    have a := copyVars_fresh (copyVars (next + 1) c.optimVars).2 c.auxVars
    have hle : next + 1 ≤ (copyFn next c).2 := by simp only [copyFn]; omega
    obtain ⟨i1, i2⟩ := ih (copyFn next c).2 (by omega)
    refine ⟨by simp [copyFns, i1], ?_⟩
    intro p hp
    simp only [copyFns, List.mem_cons] at hp
    rcases hp with rfl | hp
    · refine ⟨rfl, rfl, copyVars_shape _ _, copyVars_shape _ _, ?_⟩
      intro v hv
      simp only [copyFn, List.mem_append] at hv
      rcases hv with hv | hv
      · have := o.2 v hv; omega
      · have := a.2 v hv; omega
    · exact i2 p hp

/-- Structure of the original objective that the proof uses. -/
structure Orig (dt : Nat) (cs : List CostFn) : Prop where
  names : (cs.map CostFn.name).Nodup
  nowopt : ∀ c ∈ cs, c.weight.optimVars = []
  dty : ∀ c ∈ cs, ∀ v ∈ c.vars, v.dtype = dt
  uniq : ∀ u v, Uses cs u → Uses cs v → u.name = v.name → u = v
  disj : ∀ v, UsesOptim cs v → ¬ UsesAux cs v
  nodup : ∀ c ∈ cs, c.vars.Nodup

theorem orig_mono_names {dt : Nat} {cs : List CostFn} (h : Orig dt cs) {c : CostFn} (hc : c ∈ cs) :
    (c.vars.map Var.name).Nodup := by
  rw [List.nodup_map_iff_inj_on (h.nodup c hc)]
  intro u hu v hv e
  exact h.uniq u v ⟨c, hc, hu⟩ ⟨c, hc, hv⟩ e

/-- The loop invariant and conclusion. -/
theorem copyLoop_ok (inner : CostFn → Option Nat) (base dt : Nat) (cs : List CostFn) (ho : Orig dt cs) :
    ∀ (rest : List (CostFn × CostFn)) (done news : List CostFn) (s : State) (W : Dict Weight Weight),
    done ++ rest.map Prod.fst = cs → Inv s news news → s.dtype = dt →
    List.Forall₂ Twin done news →
    (∀ c' ∈ news, ∀ v ∈ c'.vars, base ≤ v.id) →
    (∀ p ∈ rest, FreshFn base p.1 p.2) →
    (∀ c ∈ cs, ∃ w', W.get? c.weight = some w' ∧ SameShape c.weight.auxVars w'.auxVars ∧
      w'.optimVars = [] ∧ ∀ v ∈ w'.auxVars, base ≤ v.id) →
    List.Forall₂ (fun c c' => W.get? c.weight = some c'.weight) done news →
    (∀ w1 w2 a b, W.get? w1 = some a → W.get? w2 = some b → a.id = b.id → w1 = w2) →
    ∃ W' : Dict Weight Weight, ∃ fin : List CostFn,
      (copyLoop inner s W rest).2.1 = none ∧
      (copyLoop inner s W rest).2.2.map NewFn.fn = fin ∧
      Inv (copyLoop inner s W rest).1 (news ++ fin) (news ++ fin) ∧
      (copyLoop inner s W rest).1.dtype = dt ∧
      List.Forall₂ Twin cs (news ++ fin) ∧
      (∀ c' ∈ news ++ fin, ∀ v ∈ c'.vars, base ≤ v.id) ∧
      List.Forall₂ (fun c c' => W'.get? c.weight = some c'.weight) cs (news ++ fin) ∧
      (∀ w1 w2 a b, W'.get? w1 = some a → W'.get? w2 = some b → a.id = b.id → w1 = w2) := by
  intro rest
  induction rest with
  | nil =>
    intro done news s W hcs hinv hdt htw hfr _ _ hwt hinj
    refine ⟨W, [], rfl, rfl, by simpa [copyLoop] using hinv, hdt, ?_, by simpa using hfr, ?_, hinj⟩
    · simp only [List.map_nil, List.append_nil] at hcs; subst hcs; simpa using htw
    · simp only [List.map_nil, List.append_nil] at hcs; subst hcs; simpa using hwt
  | cons p rest ih =>
    intro done news s W hcs hinv hdt htw hfr hff hW hwt hinj
    obtain ⟨c, f⟩ := p
    have hccs : c ∈ cs := by rw [← hcs]; simp
    have hdcs : ∀ d ∈ done, d ∈ cs := by intro d hd; rw [← hcs]; simp [hd]
    obtain ⟨w, hw, wsh, wopt, wfr⟩ := hW c hccs
    have hF := hff (c, f) List.mem_cons_self
    -- facts about the new objective
    have hO : ∀ n v, s.optimVars.get? n = some v ↔ v.name = n ∧ UsesOptim news v := hinv.hasOptim
    have hA : ∀ n v, s.auxVars.get? n = some v ↔ v.name = n ∧ UsesAux news v := hinv.hasAux
    have hcw : s.cwOptimVars = [] := hinv.rg.cw
    have dO : ∀ n v, s.optimVars.get? n = some v → v.name = n ∧ v.dtype = dt := by
      intro n v h
      obtain ⟨a, c', hc', hv⟩ := (hO n v).1 h
      exact ⟨a, hdt ▸ hinv.dty c' hc' v (by simp [CostFn.vars, hv])⟩
    have dA : ∀ n v, s.auxVars.get? n = some v → v.name = n ∧ v.dtype = dt := by
      intro n v h
      obtain ⟨a, c', hc', hv⟩ := (hA n v).1 h
      exact ⟨a, hdt ▸ hinv.dty c' hc' v (by simp [CostFn.vars, hv])⟩
    have cdt := ho.dty c hccs
    have cdo : ∀ v ∈ c.optimVars, v.dtype = dt := fun v hv => cdt v (by simp [CostFn.vars, CostFn.optims, hv])
    have cda : ∀ v ∈ c.auxVars, v.dtype = dt := fun v hv => cdt v (by simp [CostFn.vars, CostFn.auxs, hv])
    have cdw : ∀ v ∈ c.weight.auxVars, v.dtype = dt := fun v hv => cdt v (by simp [CostFn.vars, CostFn.auxs, hv])
    -- the new weight and cost function
    have hsw : ∃ w', w' = swapWeight s w := ⟨_, rfl⟩
    obtain ⟨w', hw'⟩ := hsw
    have hsc : ∃ c', c' = swapFn s f w' := ⟨_, rfl⟩
    obtain ⟨c', hc'⟩ := hsc
    have tw : Twin c c' := by
      subst hc' hw'
      refine ⟨hF.name, hF.dim, hF.optim.swap _ dt dO cdo, hF.aux.swap _ dt dA cda, wsh.swap _ dt dA cdw, ?_⟩
      simp [swapFn, swapWeight, wopt]
    -- a variable of the copy registered before is the registered one
    have regO : ∀ v ∈ c'.optims, ∀ u, UsesOptim news u → u.name = v.name → u = v := by
      intro v hv u hu hn
      subst hc'
      have hg := (hO v.name u).2 ⟨hn, hu⟩
      rcases mem_swap hv with h | ⟨_, h⟩ | ⟨z, _, h⟩
      · rw [hg] at h; simpa using h
      · rw [hg] at h; simp at h
      · have := (dO _ _ h).1; rw [← this] at h; rw [hg] at h; simpa using h
    have regA : ∀ v ∈ c'.auxs, ∀ u, UsesAux news u → u.name = v.name → u = v := by
      intro v hv u hu hn
      subst hc' hw'
      have hg := (hA v.name u).2 ⟨hn, hu⟩
      simp only [CostFn.auxs, swapFn, swapWeight, List.mem_append] at hv
      rcases hv with hv | hv <;>
      rcases mem_swap hv with h | ⟨_, h⟩ | ⟨z, _, h⟩
      · rw [hg] at h; simpa using h
      · rw [hg] at h; simp at h
      · have := (dA _ _ h).1; rw [← this] at h; rw [hg] at h; simpa using h
      · rw [hg] at h; simpa using h
      · rw [hg] at h; simp at h
      · have := (dA _ _ h).1; rw [← this] at h; rw [hg] at h; simpa using h
    -- name uses in the copy come from name uses in the original
    have backO : ∀ u, UsesOptim news u → ∃ v, UsesOptim cs v ∧ v.name = u.name := by
      rintro u ⟨d', hd', hu⟩
      obtain ⟨d, hd, t⟩ := twin_mem htw hd'
      obtain ⟨v, hv, e, _⟩ := t.optims.mem hu
      exact ⟨v, ⟨d, hdcs d hd, hv⟩, e.symm⟩
    have backA : ∀ u, UsesAux news u → ∃ v, UsesAux cs v ∧ v.name = u.name := by
      rintro u ⟨d', hd', hu⟩
      obtain ⟨d, hd, t⟩ := twin_mem htw hd'
      obtain ⟨v, hv, e, _⟩ := t.auxs.mem hu
      exact ⟨v, ⟨d, hdcs d hd, hv⟩, e.symm⟩
    have crossOA : ∀ v ∈ c'.optims, ∀ u, UsesAux news u → u.name ≠ v.name := by
      intro v hv u hu hn
      obtain ⟨a, ha, ea⟩ := backA u hu
      obtain ⟨b, hb, eb, _⟩ := tw.optims.mem hv
      have hbo : UsesOptim cs b := ⟨c, hccs, hb⟩
      have := ho.uniq a b ((uses_iff _ _).2 (Or.inr ha)) ((uses_iff _ _).2 (Or.inl hbo))
        (by rw [ea, hn, eb])
      subst this
      exact ho.disj a hbo ha
    have crossAO : ∀ v ∈ c'.auxs, ∀ u, UsesOptim news u → u.name ≠ v.name := by
      intro v hv u hu hn
      obtain ⟨a, ha, ea⟩ := backO u hu
      obtain ⟨b, hb, eb, _⟩ := tw.auxs.mem hv
      have hba : UsesAux cs b := ⟨c, hccs, hb⟩
      have := ho.uniq a b ((uses_iff _ _).2 (Or.inl ha)) ((uses_iff _ _).2 (Or.inr hba))
        (by rw [ea, hn, eb])
      subst this
      exact ho.disj a ha hba
    have hnn : (c'.vars.map Var.name).Nodup := by
      rw [tw.vars.names]; exact orig_mono_names ho hccs
    have hinjv : ∀ u ∈ c'.vars, ∀ v ∈ c'.vars, u.name = v.name → u = v :=
      fun u hu v hv e => List.inj_on_of_nodup_map hnn hu hv e
    have hnd : c'.vars.Nodup := List.Nodup.of_map _ hnn
    have hnamefresh : ∀ d' ∈ news, d'.name = c'.name → d' = c' := by
      intro d' hd' e
      exfalso
      obtain ⟨d, hd, t⟩ := twin_mem htw hd'
      have hn := ho.names
      rw [← hcs] at hn
      simp only [List.map_append, List.map_cons, List.nodup_append] at hn
      exact hn.2.2 d.name (List.mem_map.2 ⟨d, hd, rfl⟩) c.name (by simp) (by rw [← t.name, e, tw.name])
    have hadd : (add s c').2 = none := by
      rw [add_ok_iff hinv]
      refine ⟨hnamefresh, tw.wopt, ?_, ?_, ?_, ?_⟩
      · intro v hv
        obtain ⟨u, hu, _, e⟩ := tw.vars.mem hv
        rw [e, hdt]; exact cdt u hu
      · intro v hv u hu hn
        rcases hu with hu | hu
        · exact hinjv u hu v hv hn
        · rw [uses_iff] at hu
          simp only [CostFn.vars, List.mem_append] at hv
          rcases hv with hv | hv <;> rcases hu with hu | hu
          · exact regO v hv u hu hn
          · exact absurd hn (crossOA v hv u hu)
          · exact absurd hn (crossAO v hv u hu)
          · exact regA v hv u hu hn
      · intro v hv
        refine ⟨fun hva => ?_, fun hva => crossOA v hv v hva rfl⟩
        have := List.nodup_append.1 hnd
        exact this.2.2 v hv v hva rfl
      · intro v hv hvo
        exact crossAO v hv v hvo rfl
    have hnin : c' ∉ news := by
      intro h
      obtain ⟨d, hd, t⟩ := twin_mem htw h
      have hn := ho.names
      rw [← hcs] at hn
      simp only [List.map_append, List.map_cons, List.nodup_append] at hn
      exact hn.2.2 d.name (List.mem_map.2 ⟨d, hd, rfl⟩) c.name (by simp) (by rw [← t.name, tw.name])
    obtain ⟨reg, hr, hd', he⟩ := run_inv hinv (hist := [.add c']) ⟨hadd, trivial⟩
    have he := he rfl ⟨by rintro g ⟨⟩; exact hnin, trivial⟩
    simp only [specRun, specCall, if_neg hnin] at hr he
    subst he
    have hrun : run s [.add c'] = (add s c').1 := rfl
    rw [hrun] at hr hd'
    -- freshness
    have hc'fr : ∀ v ∈ c'.vars, base ≤ v.id := by
      have frO : ∀ n v, s.optimVars.get? n = some v → base ≤ v.id := by
        intro n v h
        obtain ⟨_, d', hd', hv⟩ := (hO n v).1 h
        exact hfr d' hd' v (by simp [CostFn.vars, hv])
      have frA : ∀ n v, s.auxVars.get? n = some v → base ≤ v.id := by
        intro n v h
        obtain ⟨_, d', hd', hv⟩ := (hA n v).1 h
        exact hfr d' hd' v (by simp [CostFn.vars, hv])
      intro v hv
      subst hc' hw'
      simp only [CostFn.vars, CostFn.optims, CostFn.auxs, swapFn, swapWeight, List.mem_append] at hv
      rcases hv with hv | hv | hv
      · rcases mem_swap hv with h | ⟨h, _⟩ | ⟨z, _, h⟩
        · exact frO _ _ h
        · exact hF.fresh v (by simp only [List.mem_append]; exact Or.inl h)
        · exact frO _ _ h
      · rcases mem_swap hv with h | ⟨h, _⟩ | ⟨z, _, h⟩
        · exact frA _ _ h
        · exact hF.fresh v (by simp only [List.mem_append]; exact Or.inr h)
        · exact frA _ _ h
      · rcases mem_swap hv with h | ⟨h, _⟩ | ⟨z, _, h⟩
        · exact frA _ _ h
        · exact wfr v h
        · exact frA _ _ h
    have hw'id : w'.id = w.id := by subst hw'; rfl
    have hcw' : c'.weight = w' := by subst hc'; rfl
    -- re-pointing a weight that was registered before changes nothing
    have widem : ∀ d d', (d, d') ∈ done.zip news → d.weight = c.weight → w' = w := by
      intro d d' hdd e
      have h1 : W.get? d.weight = some d'.weight := by
        clear ih
        have : ∀ (a b : List CostFn), List.Forall₂ (fun c c' => W.get? c.weight = some c'.weight) a b →
            (d, d') ∈ a.zip b → W.get? d.weight = some d'.weight := by
          intro a b hab
          induction hab with
          | nil => simp
          | cons h _ ih =>
            simp only [List.zip_cons_cons, List.mem_cons, Prod.mk.injEq]
            rintro (⟨rfl, rfl⟩ | h')
            · exact h
            · exact ih h'
        exact this done news hwt hdd
      rw [e, hw] at h1
      simp only [Option.some.injEq] at h1
      have hd'n : d' ∈ news := (List.of_mem_zip hdd).2
      have e1 : w.auxVars.map (swap s.auxVars) = w.auxVars := by
        apply swap_id
        intro v hv
        exact (hA _ _).2 ⟨rfl, d', hd'n, by simp [CostFn.auxs, ← h1, hv]⟩
      subst hw'
      simp [swapWeight, e1, wopt]
      rw [← wopt]
    have hwt' : List.Forall₂ (fun d d' => (W.set c.weight w').get? d.weight = some d'.weight) done news := by
      have hz : ∀ (a b : List CostFn), (∀ p ∈ a.zip b, p ∈ done.zip news) →
          List.Forall₂ (fun c c' => W.get? c.weight = some c'.weight) a b →
          List.Forall₂ (fun d d' => (W.set c.weight w').get? d.weight = some d'.weight) a b := by
        intro a b hsub hab
        induction hab with
        | nil => exact .nil
        | @cons d d' a b h _ ih =>
          refine .cons ?_ (ih (fun p hp => hsub p (by simp [hp])))
          have hm := widem d d' (hsub (d, d') (by simp))
          by_cases e : d.weight = c.weight
          · have := hm e
            rw [e] at h ⊢
            rw [hw] at h
            simp only [Option.some.injEq] at h
            simp [this, h]
          · rw [Dict.get?_set, if_neg (Ne.symm e)]; exact h
      exact hz done news (fun p hp => hp) hwt
    have step := ih (done ++ [c]) (news ++ [c']) (add s c').1 (W.set c.weight w')
      (by rw [← hcs]; simp) hr (by rw [hd', hdt])
      (List.rel_append htw (.cons tw .nil))
      (by
        intro d hd v hv
        simp only [List.mem_append, List.mem_singleton] at hd
        rcases hd with hd | rfl
        · exact hfr d hd v hv
        · exact hc'fr v hv)
      (fun p hp => hff p (List.mem_cons_of_mem _ hp))
      (by
        intro d hd
        by_cases e : c.weight = d.weight
        · refine ⟨w', by rw [e]; simp, ?_, ?_, ?_⟩
          · have := tw.waux; rw [hcw'] at this; rw [← e]; exact this
          · have := tw.wopt; rw [hcw'] at this; exact this
          · intro v hv
            exact hc'fr v (by simp [CostFn.vars, CostFn.auxs, hcw', hv])
        · obtain ⟨x, a, b⟩ := hW d hd
          exact ⟨x, by rw [Dict.get?_set, if_neg e]; exact a, b⟩)
      (List.rel_append hwt' (.cons (by simp [hcw']) .nil))
      (by
        intro w1 w2 a b h1 h2 hid
        rw [Dict.get?_set] at h1 h2
        by_cases e1 : c.weight = w1 <;> by_cases e2 : c.weight = w2
        · rw [← e1, ← e2]
        · simp only [e1, if_true, Option.some.injEq] at h1
          rw [if_neg e2] at h2
          subst h1
          rw [← e1]; exact hinj _ _ _ _ hw h2 (by rw [← hid, hw'id])
        · simp only [e2, if_true, Option.some.injEq] at h2
          rw [if_neg e1] at h1
          subst h2
          rw [← e2]; exact hinj _ _ _ _ h1 hw (by rw [hid, hw'id])
        · rw [if_neg e1] at h1; rw [if_neg e2] at h2; exact hinj _ _ _ _ h1 h2 hid)
    obtain ⟨W', fin, s1, s2, s3, s4, s5, s6, s7, s8⟩ := step
    have hloop : copyLoop inner s W ((c, f) :: rest) =
        ((copyLoop inner (add s c').1 (W.set c.weight w') rest).1,
         (copyLoop inner (add s c').1 (W.set c.weight w') rest).2.1,
         ⟨c', readsOf inner c f c'⟩ :: (copyLoop inner (add s c').1 (W.set c.weight w') rest).2.2) := by
      conv_lhs => unfold copyLoop
      simp only [hw, ← hw', ← hc']
      have : add s c' = ((add s c').1, none) := by rw [← hadd]
      rw [this]
    rw [hloop]
    simp only [List.append_assoc, List.singleton_append] at s3 s5 s6 s7
    exact ⟨W', c' :: fin, s1, by simp [s2], s3, s4, s5, s6, s7, s8⟩

/-! ### C11 -/

/-- `c'` is the copy of `c` along a renaming `φ` of the variables and `ω` of the weights. -/
structure CopyOf (φ : Var → Var) (ω : Weight → Weight) (c c' : CostFn) : Prop where
  name : c'.name = c.name
  dim : c'.dim = c.dim
  optim : c'.optimVars = c.optimVars.map φ
  aux : c'.auxVars = c.auxVars.map φ
  weight : c'.weight = ω c.weight
  waux : (ω c.weight).auxVars = c.weight.auxVars.map φ

theorem SameShape.eq_map {l l' : List Var} (h : SameShape l l') (φ : Var → Var)
    (hφ : ∀ v v', v ∈ l → v' ∈ l' → v'.name = v.name → v' = φ v) : l' = l.map φ := by
  induction h with
  | nil => rfl
  | cons h _ ih =>
    rw [List.map_cons, ← ih (fun v v' hv hv' => hφ v v' (List.mem_cons_of_mem _ hv) (List.mem_cons_of_mem _ hv')),
      hφ _ _ List.mem_cons_self List.mem_cons_self h.1]

/-- C11 (what holds): on every objective built by successful calls in which no cost function uses one
variable in two places (counting the places of its weight), `copy()` succeeds, and the new objective is
the old one with the variables and weights renamed: same cost function names and dimensions in the same
order, the same sharing of variables and of weights (`φ` and `ω` are functions, injective on what the
objective uses), variable names and dtypes kept, and no variable in common with the old one (all the new
ids are at least `next`, the first unused id).  Missing from C11: cost functions that use a variable twice
(`copy_fails_shared_with_weight`), and what a robust cost function reads
(`copy_robust_detached`). -/
theorem copy_isomorphic_partial (inner : CostFn → Option Nat) (dt : Nat) (hist : List Call)
    (hok : Succeeds (init dt false) hist) (next : Nat)
    (hnd : ∀ c ∈ iter (run (init dt false) hist), c.vars.Nodup) :
    (objCopy inner (run (init dt false) hist) next).2.1 = none ∧
    ∃ (φ : Var → Var) (ω : Weight → Weight),
      List.Forall₂ (CopyOf φ ω) (iter (run (init dt false) hist))
        (iter (objCopy inner (run (init dt false) hist) next).1) ∧
      (∀ v, Uses (iter (run (init dt false) hist)) v →
        (φ v).name = v.name ∧ (φ v).dtype = v.dtype ∧ next ≤ (φ v).id) ∧
      (∀ u v, Uses (iter (run (init dt false) hist)) u → Uses (iter (run (init dt false) hist)) v →
        φ u = φ v → u = v) ∧
      (∀ c ∈ iter (run (init dt false) hist), ∀ d ∈ iter (run (init dt false) hist),
        (ω c.weight).id = (ω d.weight).id → c.weight = d.weight) := by
  obtain ⟨reg, h, hdt, _⟩ := run_inv (init_inv dt) hok
  have hit := iter_eq_spec dt hist hok
  rw [hit] at hnd ⊢
  generalize run (init dt false) hist = s at *
  generalize specRun [] hist = cs at *
  have usesub : ∀ v, Uses cs v → Uses reg v := fun v ⟨c, hc, hv⟩ => ⟨c, h.sub c hc, hv⟩
  have ho : Orig dt cs := by
    refine ⟨h.names, fun c hc => h.nowopt c (h.sub c hc), ?_, ?_, ?_, hnd⟩
    · intro c hc v hv; rw [h.dty c (h.sub c hc) v hv, hdt]; rfl
    · intro u v hu hv hn; exact h.uniq (usesub u hu) (usesub v hv) hn
    · rintro v ⟨c, hc, hv⟩ ⟨d, hd, hv'⟩
      exact h.disj (v := v) ⟨c, h.sub c hc, hv⟩ ⟨d, h.sub d hd, hv'⟩
  obtain ⟨w1, w2, w3, w4⟩ := copyWeights_spec next s.cfForWeights.keys
  obtain ⟨f1, f2⟩ := copyFns_spec next (copyWeights next s.cfForWeights.keys).2 w1 s.costFns.vals
  have hvals : s.costFns.vals = cs := hit
  have hwk : ∀ c ∈ cs, c.weight ∈ s.cfForWeights.keys := by
    intro c hc
    rw [Dict.mem_keys_iff]
    obtain ⟨l, hl⟩ := (h.weight_has c.weight).2 (List.mem_map.2 ⟨c, h.sub c hc, rfl⟩)
    simp [hl]
  have hsdt : s.dtype = dt := by rw [hdt]; rfl
  obtain ⟨W', fin, a1, a2, a3, a4, a5, a6, a7, a8⟩ :=
    copyLoop_ok inner next dt cs ho (copyFns (copyWeights next s.cfForWeights.keys).2 s.costFns.vals)
      [] [] (init s.dtype false) (copyWeights next s.cfForWeights.keys).1
      (by rw [List.nil_append, f1, hvals]) (init_inv _) hsdt .nil (by simp) f2
      (by
        intro c hc
        obtain ⟨w', b1, b2, b3, b4⟩ := w2 c.weight (hwk c hc)
        exact ⟨w', b1, b2, b3 (ho.nowopt c hc), b4⟩)
      .nil w4
  simp only [List.nil_append] at a3 a5 a6 a7
  refine ⟨a1, ?_⟩
  have hobj : ∀ x, x = objCopy inner s next → x = copyLoop inner (init s.dtype false)
      (copyWeights next s.cfForWeights.keys).1
      (copyFns (copyWeights next s.cfForWeights.keys).2 s.costFns.vals) := fun x hx => hx
  rw [show objCopy inner s next = _ from hobj _ rfl]
  generalize copyLoop inner (init s.dtype false)
      (copyWeights next s.cfForWeights.keys).1
      (copyFns (copyWeights next s.cfForWeights.keys).2 s.costFns.vals) = R at *
  have hiter : iter R.1 = fin := by
    rw [iter, a3.costs]; simp [Dict.vals, Function.comp_def]
  have hall : ∀ v, Uses fin v → R.1.allVars.get? v.name = some v := by
    intro v hv
    rw [a3.rg.all]
    refine ⟨rfl, ?_⟩
    rw [uses_iff] at hv
    rw [used_optim_iff, used_aux_iff]; exact hv
  have hφ : ∀ c c', c ∈ cs → c' ∈ fin → ∀ v v', v' ∈ c'.vars → v'.name = v.name →
      v' = (R.1.allVars.get? v.name).getD v := by
    intro c c' _ hc' v v' hv' e
    rw [← e, hall v' ⟨c', hc', hv'⟩]; rfl
  have hback : ∀ v, Uses cs v → ∃ v', Uses fin v' ∧ v'.name = v.name ∧ v'.dtype = v.dtype ∧ next ≤ v'.id := by
    rintro v ⟨c, hc, hv⟩
    have : ∀ (a b : List CostFn), List.Forall₂ Twin a b → c ∈ a → ∃ c' ∈ b, Twin c c' := by
      intro a b hab
      induction hab with
      | nil => simp
      | cons h _ ih =>
        simp only [List.mem_cons]
        rintro (rfl | hc)
        · exact ⟨_, Or.inl rfl, h⟩
        · obtain ⟨c', x, y⟩ := ih hc; exact ⟨c', Or.inr x, y⟩
    obtain ⟨c', hc', t⟩ := this cs fin a5 hc
    obtain ⟨v', hv', e1, e2⟩ := t.vars.mem' hv
    exact ⟨v', ⟨c', hc', hv'⟩, e1, e2, a6 c' hc' v' hv'⟩
  have hφv : ∀ v, Uses cs v → ∃ v', (R.1.allVars.get? v.name).getD v = v' ∧ v'.name = v.name ∧
      v'.dtype = v.dtype ∧ next ≤ v'.id := by
    intro v hv
    obtain ⟨v', u, e, r⟩ := hback v hv
    refine ⟨v', ?_, e, r⟩
    rw [← e, hall v' u]; rfl
  refine ⟨fun v => (R.1.allVars.get? v.name).getD v, fun w => (W'.get? w).getD w, ?_, ?_, ?_, ?_⟩
  · rw [hiter]
    have : ∀ (a b : List CostFn), (∀ c ∈ a, c ∈ cs) → (∀ c ∈ b, c ∈ fin) → List.Forall₂ Twin a b →
        List.Forall₂ (fun c c' => W'.get? c.weight = some c'.weight) a b →
        List.Forall₂ (CopyOf (fun v => (R.1.allVars.get? v.name).getD v) (fun w => (W'.get? w).getD w)) a b := by
      intro a b ha hb hab hw
      induction hab with
      | nil => exact .nil
      | @cons c c' a b t _ ih =>
        cases hw with
        | cons hw1 hw2 =>
          refine .cons ?_ (ih (fun d hd => ha d (List.mem_cons_of_mem _ hd))
            (fun d hd => hb d (List.mem_cons_of_mem _ hd)) hw2)
          have hcc := ha c List.mem_cons_self
          have hcf := hb c' List.mem_cons_self
          refine ⟨t.name, t.dim, ?_, ?_, by simp [hw1], ?_⟩
          · exact t.optim.eq_map _ (fun v v' _ hv' e =>
              hφ c c' hcc hcf v v' (by simp [CostFn.vars, CostFn.optims, hv']) e)
          · exact t.aux.eq_map _ (fun v v' _ hv' e =>
              hφ c c' hcc hcf v v' (by simp [CostFn.vars, CostFn.auxs, hv']) e)
          · simp only [hw1, Option.getD_some]
            exact t.waux.eq_map _ (fun v v' _ hv' e =>
              hφ c c' hcc hcf v v' (by simp [CostFn.vars, CostFn.auxs, hv']) e)
    exact this cs fin (fun _ h => h) (fun _ h => h) a5 a7
  · intro v hv
    obtain ⟨v', e, r⟩ := hφv v hv
    simp only [e]; exact r
  · intro u v hu hv e
    obtain ⟨u', eu, nu, _⟩ := hφv u hu
    obtain ⟨v', ev, nv, _⟩ := hφv v hv
    simp only [eu, ev] at e
    exact ho.uniq u v hu hv (by rw [← nu, ← nv, e])
  · intro c hc d hd e
    have hex : ∀ c ∈ cs, ∃ w', W'.get? c.weight = some w' := by
      intro c hc
      have : ∀ (a b : List CostFn), List.Forall₂ (fun c c' => W'.get? c.weight = some c'.weight) a b →
          c ∈ a → ∃ w', W'.get? c.weight = some w' := by
        intro a b hab
        induction hab with
        | nil => simp
        | cons h _ ih =>
          simp only [List.mem_cons]
          rintro (rfl | hc)
          · exact ⟨_, h⟩
          · exact ih hc
      exact this cs fin a7 hc
    obtain ⟨x, hx⟩ := hex c hc
    obtain ⟨y, hy⟩ := hex d hd
    simp only [hx, hy, Option.getD_some] at e
    exact a8 _ _ _ _ hx hy e

namespace Ex
open Verif.Objective.Ex (x y t q w c1)
/-- shares `y` and the weight `w` with `c1` -/
def c6 : CostFn := { id := 25, name := 25, optimVars := [y], auxVars := [t], weight := w, dim := 3 }
/-- uses `q` itself and through its weight `w` (as `GPMotionModel` and `GPCostWeight` do with `dt`) -/
def c7 : CostFn := { id := 26, name := 26, optimVars := [x], auxVars := [q], weight := w }
/-- a robust cost function: the last auxiliary variable is `log_loss_radius` -/
def rad : Var := { id := 6, name := 6 }
def r1 : CostFn := { id := 27, name := 27, optimVars := [x], auxVars := [rad], weight := w }
def r2 : CostFn := { id := 28, name := 28, optimVars := [x], auxVars := [rad], weight := w }
end Ex

/-- the hypotheses are met by a non-trivial objective with sharing -/
example : Succeeds (init 0 false) [.add Verif.Objective.Ex.c1, .add Ex.c6] ∧
    (∀ c ∈ iter (run (init 0 false) [.add Verif.Objective.Ex.c1, .add Ex.c6]), c.vars.Nodup) ∧
    (iter (objCopy (fun _ => none) (run (init 0 false) [.add Verif.Objective.Ex.c1, .add Ex.c6]) 100).1).map
      (fun c => (c.name, c.optimVars.map Var.id, c.auxVars.map Var.id, c.weight.id)) =
      [(20, [103, 104], [105], 100), (25, [104], [105], 100)] := by
  refine ⟨by simp only [Succeeds]; decide, by decide, by decide⟩

/-- C11 fails: `copy()` raises `ValueError` on an objective whose only cost function shares an
auxiliary variable with its own weight. -/
theorem copy_fails_shared_with_weight : ∃ hist : List Call, Succeeds (init 0 false) hist ∧
    (objCopy (fun _ => none) (run (init 0 false) hist) 100).2.1 = some .valueError :=
  ⟨[.add Ex.c7], by simp only [Succeeds]; decide, by decide⟩

/-- C11 fails: `copy()` of an objective with the experimental mixed flag, whose flag it drops. -/
theorem copy_fails_mixed : ∃ hist : List Call, Succeeds (init 0 true) hist ∧
    (objCopy (fun _ => none) (run (init 0 true) hist) 100).2.1 ≠ none :=
  ⟨[.add Verif.Objective.Ex.c1, .add Verif.Objective.Ex.c4], by simp only [Succeeds]; decide, by decide⟩

/-- C11 fails: when two robust cost functions share an optimization variable, `copy()` succeeds but
the second copied function evaluates a variable that is not a variable of the new objective (so
updating the new objective does not reach it). -/
theorem copy_robust_detached : ∃ (hist : List Call) (f : NewFn) (v : Var),
    Succeeds (init 0 false) hist ∧
    (objCopy (fun _ => some 0) (run (init 0 false) hist) 100).2.1 = none ∧
    f ∈ (objCopy (fun _ => some 0) (run (init 0 false) hist) 100).2.2 ∧ v ∈ f.reads ∧
    getOptimVar (objCopy (fun _ => some 0) (run (init 0 false) hist) 100).1 v.name ≠ some v ∧
    getAuxVar (objCopy (fun _ => some 0) (run (init 0 false) hist) 100).1 v.name ≠ some v := by
  refine ⟨[.add Ex.r1, .add Ex.r2],
    ((objCopy (fun _ => some 0) (run (init 0 false) [.add Ex.r1, .add Ex.r2]) 100).2.2)[1]'(by decide),
    (((objCopy (fun _ => some 0) (run (init 0 false) [.add Ex.r1, .add Ex.r2]) 100).2.2)[1]'(by decide)).reads[0]'(by decide),
    by simp only [Succeeds]; decide, by decide, List.getElem_mem _, List.getElem_mem _, by decide, by decide⟩

/-- C11: cost functions that are not robust read exactly the new objective's variables. -/
theorem copyLoop_reads (inner : CostFn → Option Nat) (hin : ∀ c, inner c = none) (s : State)
    (W : Dict Weight Weight) (l : List (CostFn × CostFn)) :
    ∀ f ∈ (copyLoop inner s W l).2.2, f.reads = f.fn.optimVars ++ f.fn.auxVars := by
  induction l generalizing s W with
  | nil => simp [copyLoop]
  | cons p l ih =>
    obtain ⟨c, g⟩ := p
    unfold copyLoop
    split
    · simp
    · simp only
      split
      · simp
      · simp only [List.mem_cons]
        rintro f (rfl | hf)
        · simp [readsOf, hin]
        · exact ih _ _ f hf

end Verif.Copy
