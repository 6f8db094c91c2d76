import Verif.Kin.Xml

/-!
# What a schema says about a node, and that the reader of `xml_reflection` does that

`Param.Means` is the specification of one parameter of a schema, without the state of the reader:
an attribute is the parsed attribute or the default, a scalar element is the first child of that
name, and an aggregate is the list of all the children of that name in document order.
-/

namespace Verif.Kin.Urdfx

/-- No two attributes, no two elements and no two variables of the schema have the same name. -/
structure SchemaOk (ps : List Param) : Prop where
  attrs : ((ps.filter fun p => p.kind = .attribute).map Param.xml).Nodup
  elems : ((ps.filter fun p => p.kind ≠ .attribute).map Param.xml).Nodup
  vars : (ps.map Param.var).Nodup

/-- The first child with the tag. -/
def Xml.child (x : Xml) (tag : String) : Option Xml := x.children.find? fun c => c.tag = some tag

/-- All the children with the tag. -/
def Xml.all (x : Xml) (tag : String) : List Xml := x.children.filter fun c => c.tag = some tag

/-- A value that is absent from the document. -/
def Param.Absent (p : Param) (v : Val) : Prop := p.required = false ∧ v = p.default

/-- The value of the parameter in the document. -/
def Param.Means (p : Param) (x : Xml) (v : Val) : Prop :=
  match p.kind with
  | .attribute =>
    match x.get p.xml with
    | some s => p.type.ofText (some s) = .ok v
    | none => p.Absent v
  | .scalar =>
    match x.child p.xml with
    | some c => p.type.ofXml c = .ok v
    | none => p.Absent v
  | .aggregate => ∃ vs, v = .list vs ∧ List.Forall₂ (fun c w => p.type.ofXml c = .ok w) (x.all p.xml) vs

section Lookup
variable {ps : List Param}

theorem find_inj {f : Param → Bool} (hf : ((ps.filter f).map Param.xml).Nodup) {p : Param}
    (hp : p ∈ ps) (hk : f p) :
    (ps.find? fun q => f q && decide (q.xml = p.xml)) = some p := by
  have hs : (ps.find? fun q => f q && decide (q.xml = p.xml)).isSome := by
    rw [List.find?_isSome]; exact ⟨p, hp, by simp [hk]⟩
  obtain ⟨q, hq⟩ := Option.isSome_iff_exists.mp hs
  have h1 := List.find?_some hq
  have h2 := List.mem_of_find?_eq_some hq
  simp only [Bool.and_eq_true, decide_eq_true_eq] at h1
  have := List.inj_on_of_nodup_map hf (List.mem_filter.mpr ⟨h2, h1.1⟩)
    (List.mem_filter.mpr ⟨hp, hk⟩) h1.2
  rw [hq, this]

theorem SchemaOk.attribute? (h : SchemaOk ps) {p : Param} (hp : p ∈ ps) (hk : p.kind = .attribute) :
    attribute? ps p.xml = some p :=
  find_inj (f := fun q => decide (q.kind = .attribute)) h.attrs hp (by simp [hk])

theorem SchemaOk.element? (h : SchemaOk ps) {p : Param} (hp : p ∈ ps) (hk : p.kind ≠ .attribute) :
    element? ps p.xml = some p :=
  find_inj (f := fun q => decide (q.kind ≠ .attribute)) h.elems hp (by simpa using hk)

theorem attribute?_some {n : String} {p : Param} (h : attribute? ps n = some p) :
    p ∈ ps ∧ p.kind = .attribute ∧ p.xml = n := by
  have h1 := List.find?_some h
  exact ⟨List.mem_of_find?_eq_some h, by simpa using h1⟩

theorem element?_some {n : String} {p : Param} (h : element? ps n = some p) :
    p ∈ ps ∧ p.kind ≠ .attribute ∧ p.xml = n := by
  have h1 := List.find?_some h
  exact ⟨List.mem_of_find?_eq_some h, by simpa using h1⟩

theorem SchemaOk.var_inj (h : SchemaOk ps) {p q : Param} (hp : p ∈ ps) (hq : q ∈ ps)
    (e : p.var = q.var) : p = q := List.inj_on_of_nodup_map h.vars hp hq e

end Lookup

section Attrs
variable {ps : List Param}

/-- What the attribute loop does. -/
theorem readAttrs_spec (h : SchemaOk ps) : ∀ (as : List (String × String)) (st st' : St),
    (as.map Prod.fst).Nodup → st.unset.Nodup → readAttrs ps as st = .ok st' →
    (∀ p ∈ ps, p.kind = .attribute → match as.lookup p.xml with
      | some s => p.type.ofText (some s) = .ok (st'.obj p.var)
      | none => st'.obj p.var = st.obj p.var) ∧
    (∀ v, (∀ p ∈ ps, p.kind = .attribute → p.var ≠ v) → st'.obj v = st.obj v) ∧
    st'.unset.Nodup ∧
    ∀ p ∈ ps, p.kind = .attribute → (p.xml ∈ st'.unset ↔ p.xml ∈ st.unset ∧ as.lookup p.xml = none)
  | [], st, st', _, hu, e => by
    simp only [readAttrs, Except.ok.injEq] at e
    subst e
    simp [hu]
  | (n, s) :: rest, st, st', hn, hu, e => by
    rw [List.map_cons, List.nodup_cons] at hn
    have hl : ∀ (as : List (String × String)), n ∉ as.map Prod.fst → as.lookup n = none := by
      intro as ha
      rw [List.lookup_eq_none_iff]
      intro p hp
      simp only [ne_eq, bne_iff_ne]
      exact fun e => ha (e ▸ List.mem_map_of_mem hp)
    have hl := hl rest hn.1
    rw [readAttrs] at e
    cases ha : attribute? ps n with
    | none =>
      rw [ha] at e
      obtain ⟨h1, h2, h3, h4⟩ := readAttrs_spec h rest st st' hn.2 hu e
      have key : ∀ p ∈ ps, p.kind = .attribute →
          List.lookup p.xml ((n, s) :: rest) = rest.lookup p.xml := by
        intro p hp hk
        have : p.xml ≠ n := by
          rintro rfl
          rw [h.attribute? hp hk] at ha; cases ha
        simp only [List.lookup, beq_eq_false_iff_ne.mpr this]
      exact ⟨fun p hp hk => by rw [key p hp hk]; exact h1 p hp hk, h2, h3,
        fun p hp hk => by rw [key p hp hk]; exact h4 p hp hk⟩
    | some p =>
      rw [ha] at e
      obtain ⟨hp, hk, rfl⟩ := attribute?_some ha
      cases ht : p.type.ofText (some s) with
      | error er => simp [ht, wrap] at e
      | ok v =>
        simp only [ht, wrap] at e
        obtain ⟨h1, h2, h3, h4⟩ := readAttrs_spec h rest _ st' hn.2 (hu.erase _) e
        have h1p := h1 p hp hk
        rw [hl] at h1p
        refine ⟨fun q hq hqk => ?_, fun w hw => ?_, h3, fun q hq hqk => ?_⟩
        · by_cases hqp : q = p
          · subst hqp
            simpa [List.lookup, ht] using h1p.symm
          · have hx : q.xml ≠ p.xml := fun e => hqp (by
              have := h.attribute? hq hqk
              rw [e, h.attribute? hp hk] at this
              exact (Option.some_injective _ this).symm)
            have hv : q.var ≠ p.var := fun e => hqp (h.var_inj hq hp e)
            have := h1 q hq hqk
            simpa only [List.lookup, beq_eq_false_iff_ne.mpr hx, Function.update_of_ne hv] using this
        · exact (h2 w hw).trans (Function.update_of_ne (Ne.symm (hw p hp hk)) _ _)
        · rw [h4 q hq hqk]
          by_cases hqp : q = p
          · subst hqp
            simp [List.lookup, hu.mem_erase_iff]
          · have hx : q.xml ≠ p.xml := fun e => hqp (by
              have := h.attribute? hq hqk
              rw [e, h.attribute? hp hk] at this
              exact (Option.some_injective _ this).symm)
            simp [List.lookup, beq_eq_false_iff_ne.mpr hx, hu.mem_erase_iff, hx]

/-- The attribute loop succeeds when all the attributes it knows can be parsed. -/
theorem readAttrs_ok (h : SchemaOk ps) : ∀ (as : List (String × String)) (st : St),
    (as.map Prod.fst).Nodup →
    (∀ p ∈ ps, p.kind = .attribute → ∀ s, as.lookup p.xml = some s →
      ∃ v, p.type.ofText (some s) = .ok v) →
    ∃ st', readAttrs ps as st = .ok st'
  | [], st, _, _ => ⟨st, rfl⟩
  | (n, s) :: rest, st, hn, hp => by
    rw [List.map_cons, List.nodup_cons] at hn
    have hrest : ∀ p ∈ ps, p.kind = .attribute → ∀ s, rest.lookup p.xml = some s →
        ∃ v, p.type.ofText (some s) = .ok v := by
      intro p hps hk t ht
      refine hp p hps hk t ?_
      have hx : p.xml ≠ n := by
        rintro rfl
        obtain ⟨l₁, l₂, hl, -⟩ := List.lookup_eq_some_iff.mp ht
        exact hn.1 (by rw [hl]; simp)
      simpa only [List.lookup, beq_eq_false_iff_ne.mpr hx] using ht
    rw [readAttrs]
    cases ha : attribute? ps n with
    | none => exact readAttrs_ok h rest st hn.2 hrest
    | some p =>
      obtain ⟨hps, hk, rfl⟩ := attribute?_some ha
      obtain ⟨v, hv⟩ := hp p hps hk s (by simp [List.lookup])
      simp only [hv, wrap]
      exact readAttrs_ok h rest _ hn.2 hrest

end Attrs

section Kids
variable {ps : List Param}

/-- What the loop over the children does. -/
theorem readKids_spec (h : SchemaOk ps) : ∀ (ks : List Xml) (st st' : St), st.unset.Nodup →
    readKids ps ks st = .ok st' →
    (∀ p ∈ ps, p.kind = .scalar → p.xml ∈ st.unset →
      match ks.find? (fun c => c.tag = some p.xml) with
      | some c => p.type.ofXml c = .ok (st'.obj p.var)
      | none => st'.obj p.var = st.obj p.var) ∧
    (∀ p ∈ ps, p.kind = .scalar → p.xml ∉ st.unset → st'.obj p.var = st.obj p.var) ∧
    (∀ p ∈ ps, p.kind = .aggregate → ∀ l, st.obj p.var = .list l → ∃ vs,
      st'.obj p.var = .list (l ++ vs) ∧ List.Forall₂ (fun c w => p.type.ofXml c = .ok w)
        (ks.filter fun c => c.tag = some p.xml) vs) ∧
    (∀ v, (∀ p ∈ ps, p.kind ≠ .attribute → p.var ≠ v) → st'.obj v = st.obj v) ∧
    st'.unset.Nodup ∧ (∀ n ∈ st'.unset, n ∈ st.unset) ∧
    ∀ p ∈ ps, p.kind = .scalar →
      (p.xml ∈ st'.unset ↔ p.xml ∈ st.unset ∧ ks.find? (fun c => c.tag = some p.xml) = none)
  | [], st, st', hu, e => by
    simp only [readKids, Except.ok.injEq] at e
    subst e
    refine ⟨by simp, by simp, fun p _ _ l hl => ⟨[], by simp [hl]⟩, by simp, hu, by simp, by simp⟩
  | c :: rest, st, st', hu, e => by
    rw [readKids] at e
    -- the tag of `c` is the name of `p` exactly if `p` is found
    cases hb : c.tag.bind (element? ps) with
    | none =>
      rw [hb] at e
      obtain ⟨h1, h2, h3, h4, h5, h6, h7⟩ := readKids_spec h rest st st' hu e
      have key : ∀ p ∈ ps, p.kind ≠ .attribute → c.tag ≠ some p.xml := by
        intro p hp hk ht
        rw [ht, Option.bind_some, h.element? hp hk] at hb; cases hb
      refine ⟨fun p hp hk hm => ?_, h2, fun p hp hk l hl => ?_, h4, h5, h6, fun p hp hk => ?_⟩
      · simpa only [List.find?_cons, decide_eq_false (key p hp (by simp [hk]))] using h1 p hp hk hm
      · simpa [List.filter_cons, key p hp (by simp [hk])] using h3 p hp hk l hl
      · simpa only [List.find?_cons, decide_eq_false (key p hp (by simp [hk]))] using h7 p hp hk
    | some p =>
      rw [hb] at e
      obtain ⟨t, ht, hpt⟩ := Option.bind_eq_some_iff.mp hb
      obtain ⟨hp, hk, rfl⟩ := element?_some hpt
      have key : ∀ q ∈ ps, q.kind ≠ .attribute → q ≠ p → c.tag ≠ some q.xml := by
        intro q hq hqk hne e
        rw [e] at ht
        have := h.element? hq hqk
        rw [Option.some_injective _ ht, h.element? hp hk] at this
        exact hne (Option.some_injective _ this).symm
      have hv : ∀ q ∈ ps, q ≠ p → q.var ≠ p.var := fun q hq hne e => hne (h.var_inj hq hp e)
      by_cases hagg : p.kind = .aggregate
      · simp only [hagg, if_true] at e
        cases hx : p.type.ofXml c with
        | error er => simp [hx] at e
        | ok v =>
          simp only [hx] at e
          obtain ⟨h1, h2, h3, h4, h5, h6, h7⟩ := readKids_spec h rest
            ⟨Function.update st.obj p.var ((st.obj p.var).append v), st.unset⟩ st' hu e
          refine ⟨fun q hq hqk hm => ?_, fun q hq hqk hm => ?_, fun q hq hqk l hl => ?_,
            fun w hw => ?_, h5, h6, fun q hq hqk => ?_⟩
          · have hne : q ≠ p := by rintro rfl; simp [hqk] at hagg
            have := h1 q hq hqk hm
            simpa only [List.find?_cons, decide_eq_false (key q hq (by simp [hqk]) hne),
              Function.update_of_ne (hv q hq hne)] using this
          · have hne : q ≠ p := by rintro rfl; simp [hqk] at hagg
            have := h2 q hq hqk hm
            simpa only [Function.update_of_ne (hv q hq hne)] using this
          · by_cases hne : q = p
            · subst hne
              obtain ⟨vs, hvs, hf⟩ := h3 q hq hqk (l ++ [v]) (by simp [hl, Val.append])
              refine ⟨v :: vs, by simp [hvs], ?_⟩
              simpa [List.filter_cons, ht] using ⟨hx, hf⟩
            · obtain ⟨vs, hvs, hf⟩ := h3 q hq hqk l (by simp [hl, Function.update_of_ne (hv q hq hne)])
              refine ⟨vs, hvs, ?_⟩
              simpa [List.filter_cons, key q hq (by simp [hqk]) hne] using hf
          · exact (h4 w hw).trans (Function.update_of_ne (Ne.symm (hw p hp hk)) _ _)
          · have hne : q ≠ p := by rintro rfl; simp [hqk] at hagg
            simpa only [List.find?_cons, decide_eq_false (key q hq (by simp [hqk]) hne)] using h7 q hq hqk
      · have hsc : p.kind = .scalar := by cases hh : p.kind <;> simp_all
        simp only [hsc, reduceCtorEq, if_false] at e
        by_cases hm : p.xml ∈ st.unset
        · simp only [hm, if_true] at e
          cases hx : p.type.ofXml c with
          | error er => simp [hx] at e
          | ok v =>
            simp only [hx] at e
            obtain ⟨h1, h2, h3, h4, h5, h6, h7⟩ := readKids_spec h rest _ st' (hu.erase _) e
            have hpu : st'.obj p.var = v := by
              rw [h2 p hp hsc (by simp [hu.mem_erase_iff])]; simp
            have hxne : ∀ q ∈ ps, q.kind = .scalar → q ≠ p → q.xml ≠ p.xml := fun q hq hqk hne e =>
              key q hq (by simp [hqk]) hne (by rw [e]; exact ht)
            refine ⟨fun q hq hqk hqm => ?_, fun q hq hqk hqm => ?_, fun q hq hqk l hl => ?_,
              fun w hw => ?_, h5, fun n hn => (List.mem_of_mem_erase (h6 n hn)), fun q hq hqk => ?_⟩
            · by_cases hne : q = p
              · subst hne
                simp [ht, hpu, hx]
              · have := h1 q hq hqk (by simp [hu.mem_erase_iff, hqm, hxne q hq hqk hne])
                simpa only [List.find?_cons, decide_eq_false (key q hq (by simp [hqk]) hne),
                  Function.update_of_ne (hv q hq hne)] using this
            · have hne : q ≠ p := by rintro rfl; exact hqm hm
              have := h2 q hq hqk (by simp [hu.mem_erase_iff, hqm])
              simpa only [Function.update_of_ne (hv q hq hne)] using this
            · have hne : q ≠ p := by rintro rfl; exact hagg hqk
              obtain ⟨vs, hvs, hf⟩ := h3 q hq hqk l (by simp [hl, Function.update_of_ne (hv q hq hne)])
              refine ⟨vs, hvs, ?_⟩
              simpa [List.filter_cons, key q hq (by simp [hqk]) hne] using hf
            · exact (h4 w hw).trans (Function.update_of_ne (Ne.symm (hw p hp hk)) _ _)
            · rw [h7 q hq hqk]
              by_cases hne : q = p
              · subst hne
                simp [ht, hu.mem_erase_iff]
              · simp only [List.find?_cons, decide_eq_false (key q hq (by simp [hqk]) hne),
                  hu.mem_erase_iff]
                simp [hxne q hq hqk hne]
        · simp only [hm, if_false] at e
          obtain ⟨h1, h2, h3, h4, h5, h6, h7⟩ := readKids_spec h rest _ st' hu e
          refine ⟨fun q hq hqk hqm => ?_, h2, fun q hq hqk l hl => ?_, h4, h5, h6,
            fun q hq hqk => ?_⟩
          · have hne : q ≠ p := by rintro rfl; exact hm hqm
            simpa only [List.find?_cons, decide_eq_false (key q hq (by simp [hqk]) hne)]
              using h1 q hq hqk hqm
          · have hne : q ≠ p := by rintro rfl; exact hagg hqk
            simpa [List.filter_cons, key q hq (by simp [hqk]) hne] using h3 q hq hqk l hl
          · rw [h7 q hq hqk]
            by_cases hne : q = p
            · subst hne; simp [hm]
            · simp only [List.find?_cons, decide_eq_false (key q hq (by simp [hqk]) hne)]

/-- The loop over the children succeeds when the elements that it reads can be parsed. -/
theorem readKids_ok (h : SchemaOk ps) : ∀ (ks : List Xml) (st : St), st.unset.Nodup →
    (∀ p ∈ ps, p.kind = .scalar → p.xml ∈ st.unset → ∀ c,
      ks.find? (fun c => c.tag = some p.xml) = some c → ∃ v, p.type.ofXml c = .ok v) →
    (∀ p ∈ ps, p.kind = .aggregate → ∀ c ∈ ks, c.tag = some p.xml → ∃ v, p.type.ofXml c = .ok v) →
    ∃ st', readKids ps ks st = .ok st'
  | [], st, _, _, _ => ⟨st, rfl⟩
  | c :: rest, st, hu, hs, ha => by
    rw [readKids]
    have ha' : ∀ p ∈ ps, p.kind = .aggregate → ∀ c ∈ rest, c.tag = some p.xml →
        ∃ v, p.type.ofXml c = .ok v := fun p hp hk d hd => ha p hp hk d (List.mem_cons_of_mem _ hd)
    cases hb : c.tag.bind (element? ps) with
    | none =>
      refine readKids_ok h rest st hu (fun p hp hk hm d hd => hs p hp hk hm d ?_) ha'
      have : c.tag ≠ some p.xml := by
        intro ht
        rw [ht, Option.bind_some, h.element? hp (by simp [hk])] at hb; cases hb
      simpa only [List.find?_cons, decide_eq_false this] using hd
    | some p =>
      obtain ⟨t, ht, hpt⟩ := Option.bind_eq_some_iff.mp hb
      obtain ⟨hp, hk, rfl⟩ := element?_some hpt
      have key : ∀ q ∈ ps, q.kind = .scalar → q ≠ p → c.tag ≠ some q.xml := by
        intro q hq hqk hne e
        rw [e] at ht
        have := h.element? hq (by simp [hqk])
        rw [Option.some_injective _ ht, h.element? hp hk] at this
        exact hne (Option.some_injective _ this).symm
      by_cases hagg : p.kind = .aggregate
      · obtain ⟨v, hv⟩ := ha p hp hagg c (by simp) ht
        simp only [hagg, if_true, hv]
        refine readKids_ok h rest _ hu (fun q hq hqk hm d hd => hs q hq hqk hm d ?_) ha'
        have := key q hq hqk (by rintro rfl; simp [hqk] at hagg)
        simpa only [List.find?_cons, decide_eq_false this] using hd
      · have hsc : p.kind = .scalar := by cases hh : p.kind <;> simp_all
        simp only [hsc, reduceCtorEq, if_false]
        by_cases hm : p.xml ∈ st.unset
        · obtain ⟨v, hv⟩ := hs p hp hsc hm c (by simp [ht])
          simp only [hm, if_true, hv]
          refine readKids_ok h rest _ (hu.erase _) (fun q hq hqk hqm d hd => ?_) ha'
          have hne : q ≠ p := by rintro rfl; simp [hu.mem_erase_iff] at hqm
          refine hs q hq hqk (List.mem_of_mem_erase hqm) d ?_
          simpa only [List.find?_cons, decide_eq_false (key q hq hqk hne)] using hd
        · simp only [hm, if_false]
          refine readKids_ok h rest _ hu (fun q hq hqk hqm d hd => ?_) ha'
          have hne : q ≠ p := by rintro rfl; exact hm hqm
          refine hs q hq hqk hqm d ?_
          simpa only [List.find?_cons, decide_eq_false (key q hq hqk hne)] using hd

end Kids

section Defaults

/-- What the loops over the unset names do. -/
theorem setDefaults_spec {find : String → Option Param}
    (hinj : ∀ m n p q, find m = some p → find n = some q → p.var = q.var → p = q) :
    ∀ (l : List String) (o o' : String → Val), setDefaults find l o = .ok o' →
    (∀ n ∈ l, ∀ p, find n = some p → p.Absent (o' p.var)) ∧
    ∀ v, (∀ n ∈ l, ∀ p, find n = some p → p.var ≠ v) → o' v = o v
  | [], o, o', e => by
    simp only [setDefaults, Except.ok.injEq] at e
    subst e; simp
  | n :: rest, o, o', e => by
    rw [setDefaults] at e
    cases hf : find n with
    | none => simp [hf] at e
    | some p =>
      rw [hf] at e
      by_cases hr : p.required
      · simp [hr] at e
      · simp only [hr, Bool.false_eq_true, if_false] at e
        obtain ⟨h1, h2⟩ := setDefaults_spec hinj rest _ o' e
        refine ⟨fun m hm q hq => ?_, fun v hv => ?_⟩
        · rcases List.mem_cons.mp hm with rfl | hm
          · rw [hf] at hq
            obtain rfl := Option.some_injective _ hq
            by_cases hex : ∃ m ∈ rest, ∃ q, find m = some q ∧ q.var = p.var
            · obtain ⟨k, hkm, r, hr, hv⟩ := hex
              have hrp := hinj _ _ _ _ hr hf hv
              have := h1 k hkm r hr
              rwa [hrp] at this
            · push Not at hex
              exact ⟨by simpa using hr, by rw [h2 p.var hex, Function.update_self]⟩
          · exact h1 m hm q hq
        · rw [h2 v fun m hm q hq => hv m (List.mem_cons_of_mem _ hm) q hq,
            Function.update_of_ne (Ne.symm (hv n (by simp) p hf))]

theorem setDefaults_ok {find : String → Option Param} : ∀ (l : List String) (o : String → Val),
    (∀ n ∈ l, ∃ p, find n = some p ∧ p.required = false) → ∃ o', setDefaults find l o = .ok o'
  | [], o, _ => ⟨o, rfl⟩
  | n :: rest, o, h => by
    obtain ⟨p, hp, hr⟩ := h n (by simp)
    rw [setDefaults]
    simp only [hp, hr, Bool.false_eq_true, if_false]
    exact setDefaults_ok rest _ fun m hm => h m (List.mem_cons_of_mem _ hm)

end Defaults

section Read
variable {ps : List Param}

theorem Param.Means.unique {p : Param} {x : Xml} {v w : Val} (h : p.Means x v) (h' : p.Means x w) :
    v = w := by
  unfold Param.Means at h h'
  cases hk : p.kind with
  | «attribute» =>
    simp only [hk] at h h'
    cases hg : x.get p.xml with
    | none => simp only [hg] at h h'; rw [h.2, h'.2]
    | some s => simp only [hg] at h h'; rw [h] at h'; exact Except.ok.inj h'
  | scalar =>
    simp only [hk] at h h'
    cases hg : x.child p.xml with
    | none => simp only [hg] at h h'; rw [h.2, h'.2]
    | some s => simp only [hg] at h h'; rw [h] at h'; exact Except.ok.inj h'
  | aggregate =>
    simp only [hk] at h h'
    obtain ⟨vs, rfl, h⟩ := h
    obtain ⟨ws, rfl, h'⟩ := h'
    congr 1
    generalize x.all p.xml = l at h h'
    induction h generalizing ws with
    | nil => cases h'; rfl
    | cons a _ ih =>
      cases h' with
      | cons b hb =>
        rw [a] at b
        rw [Except.ok.inj b, ih _ hb]

theorem names_nodup_attr (h : SchemaOk ps) : (names ps .attribute).Nodup := by
  simpa [names] using h.attrs

theorem names_nodup_scalar (h : SchemaOk ps) : (names ps .scalar).Nodup := by
  refine h.elems.sublist (List.Sublist.map _ ?_)
  have : (ps.filter fun p => p.kind = .scalar) =
      (ps.filter fun p => p.kind ≠ .attribute).filter fun p => p.kind = .scalar := by
    rw [List.filter_filter]
    congr 1
    funext p
    cases p.kind <;> rfl
  rw [this]
  exact List.filter_sublist

theorem mem_names {k : PKind} {n : String} :
    n ∈ names ps k ↔ ∃ p ∈ ps, p.kind = k ∧ p.xml = n := by
  simp [names, List.mem_filter, and_assoc]

theorem read_sound (h : SchemaOk ps) {x : Xml} (hx : (x.attrs.map Prod.fst).Nodup)
    {o : String → Val} (e : setFromXml ps x = .ok o) :
    (∀ p ∈ ps, p.Means x (o p.var)) ∧ ∀ v, (∀ p ∈ ps, p.var ≠ v) → o v = .none := by
  unfold setFromXml at e
  cases ha : readAttrs ps x.attrs ⟨blank ps, names ps .attribute⟩ with
  | error er => simp [ha] at e
  | ok a =>
    simp only [ha] at e
    cases hb : readKids ps x.children ⟨a.obj, names ps .scalar⟩ with
    | error er => simp [hb] at e
    | ok b =>
      simp only [hb] at e
      cases hc : setDefaults (attribute? ps) a.unset b.obj with
      | error er => simp [hc] at e
      | ok c =>
        simp only [hc] at e
        obtain ⟨a1, a2, a3, a4⟩ := readAttrs_spec h _ _ _ hx (names_nodup_attr h) ha
        obtain ⟨k1, k2, k3, k4, k5, k6, k7⟩ := readKids_spec h _ _ _ (names_nodup_scalar h) hb
        have iA : ∀ m n p q, attribute? ps m = some p → attribute? ps n = some q →
            p.var = q.var → p = q := fun m n p q hp hq =>
          h.var_inj (attribute?_some hp).1 (attribute?_some hq).1
        have iE : ∀ m n p q, element? ps m = some p → element? ps n = some q →
            p.var = q.var → p = q := fun m n p q hp hq =>
          h.var_inj (element?_some hp).1 (element?_some hq).1
        obtain ⟨c1, c2⟩ := setDefaults_spec iA _ _ _ hc
        obtain ⟨o1, o2⟩ := setDefaults_spec iE _ _ _ e
        have hak : ∀ p ∈ ps, p.kind = .attribute → ∀ q ∈ ps, q.kind ≠ .attribute →
            q.var ≠ p.var := by
          intro p hp hk q hq hqk e
          exact hqk ((h.var_inj hq hp e) ▸ hk)
        refine ⟨fun p hp => ?_, fun v hv => ?_⟩
        · unfold Param.Means
          cases hk : p.kind with
          | «attribute» =>
            -- nothing after the defaults of the attributes writes the variable
            have hoc : o p.var = c p.var := o2 _ fun n _ q hq =>
              hak p hp hk q (element?_some hq).1 (element?_some hq).2.1
            have hba : b.obj p.var = a.obj p.var := k4 _ (hak p hp hk)
            have h1 := a1 p hp hk
            have h4 := a4 p hp hk
            dsimp only
            rw [show x.get p.xml = x.attrs.lookup p.xml from rfl]
            cases hl : x.attrs.lookup p.xml with
            | none =>
              rw [hl] at h4
              have hm : p.xml ∈ a.unset := h4.mpr ⟨mem_names.mpr ⟨p, hp, hk, rfl⟩, rfl⟩
              dsimp only
              rw [hoc]
              exact c1 _ hm p (h.attribute? hp hk)
            | some s =>
              rw [hl] at h1 h4
              have hcb : c p.var = b.obj p.var := by
                refine c2 _ fun n hn q hq ev => ?_
                obtain ⟨hq1, hq2, rfl⟩ := attribute?_some hq
                obtain rfl := h.var_inj hq1 hp ev
                exact absurd (h4.mp hn).2 (by simp)
              dsimp only at h1 ⊢
              rw [hoc, hcb, hba]
              exact h1
          | scalar =>
            have hka : p.kind ≠ .attribute := by simp [hk]
            have hcb : c p.var = b.obj p.var := c2 _ fun n _ q hq ev =>
              hak q (attribute?_some hq).1 (attribute?_some hq).2.1 p hp hka ev.symm
            have hmem : p.xml ∈ names ps .scalar := mem_names.mpr ⟨p, hp, hk, rfl⟩
            have h1 := k1 p hp hk hmem
            have h7 := k7 p hp hk
            dsimp only
            unfold Xml.child
            cases hl : x.children.find? (fun c => decide (c.tag = some p.xml)) with
            | none =>
              rw [hl] at h7
              dsimp only
              exact o1 _ (h7.mpr ⟨hmem, rfl⟩) p (h.element? hp hka)
            | some d =>
              rw [hl] at h1 h7
              have hoc : o p.var = c p.var := by
                refine o2 _ fun n hn q hq ev => ?_
                obtain ⟨hq1, hq2, rfl⟩ := element?_some hq
                obtain rfl := h.var_inj hq1 hp ev
                exact absurd (h7.mp hn).2 (by simp)
              dsimp only at h1 ⊢
              rw [hoc, hcb]
              exact h1
          | aggregate =>
            have hka : p.kind ≠ .attribute := by simp [hk]
            have hcb : c p.var = b.obj p.var := c2 _ fun n _ q hq ev =>
              hak q (attribute?_some hq).1 (attribute?_some hq).2.1 p hp hka ev.symm
            have hoc : o p.var = c p.var := by
              refine o2 _ fun n hn q hq ev => ?_
              obtain ⟨hq1, hq2, rfl⟩ := element?_some hq
              obtain rfl := h.var_inj hq1 hp ev
              obtain ⟨r, hr, hrk, hrx⟩ := mem_names.mp (k6 _ hn)
              have := h.element? hr (by simp [hrk])
              rw [hrx, h.element? hp hka] at this
              obtain rfl := Option.some_injective _ this
              rw [hk] at hrk; cases hrk
            have hbl : a.obj p.var = .list [] := by
              rw [a2 _ fun q hq hqk ev => hak q hq hqk p hp hka ev.symm]
              simp only [blank]
              rw [if_pos]
              simp only [List.any_eq_true, Bool.and_eq_true, decide_eq_true_eq]
              exact ⟨p, hp, hk, rfl⟩
            obtain ⟨vs, hvs, hf⟩ := k3 p hp hk [] hbl
            exact ⟨vs, by rw [hoc, hcb, hvs]; simp, hf⟩
        · rw [o2 v fun n _ q hq => hv q (element?_some hq).1,
            c2 v fun n _ q hq => hv q (attribute?_some hq).1, k4 v fun q hq _ => hv q hq,
            a2 v fun q hq _ => hv q hq]
          simp only [blank]
          rw [if_neg]
          simp only [List.any_eq_true, Bool.and_eq_true, decide_eq_true_eq, not_exists, not_and]
          exact fun q hq _ => hv q hq

theorem read_complete (h : SchemaOk ps) {x : Xml} (hx : (x.attrs.map Prod.fst).Nodup)
    (hm : ∀ p ∈ ps, ∃ v, p.Means x v) : ∃ o, setFromXml ps x = .ok o := by
  obtain ⟨a, ha⟩ := readAttrs_ok h x.attrs ⟨blank ps, names ps .attribute⟩ hx fun p hp hk s hs => by
    obtain ⟨v, hv⟩ := hm p hp
    simp only [Param.Means, hk, show x.get p.xml = some s from hs] at hv
    exact ⟨v, hv⟩
  obtain ⟨a1, a2, a3, a4⟩ := readAttrs_spec h _ _ _ hx (names_nodup_attr h) ha
  obtain ⟨b, hb⟩ := readKids_ok h x.children ⟨a.obj, names ps .scalar⟩ (names_nodup_scalar h)
    (fun p hp hk _ c hc => by
      obtain ⟨v, hv⟩ := hm p hp
      simp only [Param.Means, hk, show x.child p.xml = some c from hc] at hv
      exact ⟨v, hv⟩)
    (fun p hp hk c hc ht => by
      obtain ⟨v, hv⟩ := hm p hp
      simp only [Param.Means, hk] at hv
      obtain ⟨vs, -, hf⟩ := hv
      have : ∀ (l : List Xml) (vs : List Val),
          List.Forall₂ (fun c w => p.type.ofXml c = .ok w) l vs → c ∈ l →
          ∃ w, p.type.ofXml c = .ok w := by
        intro l vs hf
        induction hf with
        | nil => intro h; cases h
        | @cons y z _ _ a _ ih =>
          intro h
          rcases List.mem_cons.mp h with rfl | h
          · exact ⟨z, a⟩
          · exact ih h
      exact this _ _ hf (List.mem_filter.mpr ⟨hc, by simp [ht]⟩))
  obtain ⟨k1, k2, k3, k4, k5, k6, k7⟩ := readKids_spec h _ _ _ (names_nodup_scalar h) hb
  have hall : ∀ n ∈ a.unset, n ∈ names ps .attribute := by
    have : ∀ (as : List (String × String)) (st st' : St), readAttrs ps as st = .ok st' →
        ∀ n ∈ st'.unset, n ∈ st.unset := by
      intro as
      induction as with
      | nil => intro st st' e; simp only [readAttrs, Except.ok.injEq] at e; subst e; simp
      | cons y ys ih =>
        intro st st' e n hn
        obtain ⟨m, s⟩ := y
        rw [readAttrs] at e
        cases hq : attribute? ps m with
        | none => rw [hq] at e; exact ih _ _ e n hn
        | some p =>
          rw [hq] at e
          cases ht : p.type.ofText (some s) with
          | error er => simp [ht, wrap] at e
          | ok v =>
            simp only [ht, wrap] at e
            exact List.mem_of_mem_erase (ih _ _ e n hn)
    exact this _ _ _ ha
  obtain ⟨c, hc⟩ := setDefaults_ok (find := attribute? ps) a.unset b.obj fun n hn => by
    obtain ⟨p, hp, hk, rfl⟩ := mem_names.mp (hall n hn)
    refine ⟨p, h.attribute? hp hk, ?_⟩
    obtain ⟨v, hv⟩ := hm p hp
    simp only [Param.Means, hk, show x.get p.xml = none from ((a4 p hp hk).mp hn).2] at hv
    exact hv.1
  obtain ⟨o, ho⟩ := setDefaults_ok (find := element? ps) b.unset c fun n hn => by
    obtain ⟨p, hp, hk, rfl⟩ := mem_names.mp (k6 n hn)
    refine ⟨p, h.element? hp (by simp [hk]), ?_⟩
    obtain ⟨v, hv⟩ := hm p hp
    simp only [Param.Means, hk, show x.child p.xml = none from ((k7 p hp hk).mp hn).2] at hv
    exact hv.1
  exact ⟨o, by simp only [setFromXml, ha, hb, hc, ho]⟩

/-- The reader returns the object that the schema describes, and raises if there is none. -/
theorem read_iff (h : SchemaOk ps) {x : Xml} (hx : (x.attrs.map Prod.fst).Nodup)
    (o : String → Val) : setFromXml ps x = .ok o ↔
      (∀ p ∈ ps, p.Means x (o p.var)) ∧ ∀ v, (∀ p ∈ ps, p.var ≠ v) → o v = .none := by
  refine ⟨read_sound h hx, fun ⟨h1, h2⟩ => ?_⟩
  obtain ⟨o', e⟩ := read_complete h hx fun p hp => ⟨_, h1 p hp⟩
  obtain ⟨h1', h2'⟩ := read_sound h hx e
  rw [e]
  congr 1
  funext v
  by_cases hv : ∃ p ∈ ps, p.var = v
  · obtain ⟨p, hp, rfl⟩ := hv
    exact (h1' p hp).unique (h1 p hp)
  · push Not at hv
    rw [h2' v hv, h2 v hv]

end Read
end Verif.Kin.Urdfx
