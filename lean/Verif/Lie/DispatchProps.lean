import Verif.Lie.Dispatch
import Mathlib.Tactic

/-!
# Torch functions on `LieTensor`s (C88)
-/

namespace Verif.Lie.Dispatch
open Verif.Lie.Tensor (Lt)

variable {D : Type}

/-! ## Specification -/

/-- Every `LieTensor` among the arguments has type `l`. -/
def AllOf (l : Lt) (args : List (Leaf D)) : Prop := ∀ l' d, .lie l' d ∈ args → l' = l

/-- Two `LieTensor`s of different types are among the arguments. -/
def Mixed (args : List (Leaf D)) : Prop :=
  ∃ d d', .lie .se3 d ∈ args ∧ .lie .so3 d' ∈ args

/-! ## Lemmas -/

theorem mem_lts {args : List (Leaf D)} {l : Lt} :
    l ∈ (args.filterMap Leaf.lt).dedup ↔ ∃ d, .lie l d ∈ args := by
  rw [List.mem_dedup, List.mem_filterMap]
  constructor
  · rintro ⟨a, ha, h⟩
    cases a with
    | lie l' d => cases h; exact ⟨d, ha⟩
    | tensor _ => cases h
    | other => cases h
  · rintro ⟨d, h⟩
    exact ⟨_, h, rfl⟩

theorem getLtype_spec (args : List (Leaf D)) :
    (getLtype args = .error .value ∧ Mixed args) ∨
    (∃ l, getLtype args = .ok (some l) ∧ AllOf l args ∧ ∃ d, .lie l d ∈ args) ∨
    (getLtype args = .ok none ∧ ∀ l d, .lie l d ∉ args) := by
  have hn : (args.filterMap Leaf.lt).dedup.Nodup := List.nodup_dedup _
  have hm := fun l => mem_lts (args := args) (l := l)
  unfold getLtype
  rcases h : (args.filterMap Leaf.lt).dedup with _ | ⟨l, _ | ⟨l2, rest⟩⟩
  · right; right
    refine ⟨rfl, fun l d hl => ?_⟩
    have := (hm l).2 ⟨d, hl⟩
    rw [h] at this
    cases this
  · right; left
    refine ⟨l, rfl, fun l' d hl => ?_, ?_⟩
    · have := (hm l').2 ⟨d, hl⟩
      rw [h] at this
      simpa using this
    · exact (hm l).1 (by rw [h]; simp)
  · left
    refine ⟨rfl, ?_⟩
    rw [h] at hn
    have hne : l ≠ l2 := by
      intro e; subst e; simp at hn
    obtain ⟨d, hd⟩ := (hm l).1 (by rw [h]; simp)
    obtain ⟨d2, hd2⟩ := (hm l2).1 (by rw [h]; simp)
    cases l <;> cases l2
    · exact absurd rfl hne
    · exact ⟨d, d2, hd, hd2⟩
    · exact ⟨d2, d, hd2, hd⟩
    · exact absurd rfl hne

theorem not_mixed_of_allOf {l : Lt} {args : List (Leaf D)} (h : AllOf l args) : ¬ Mixed args := by
  rintro ⟨d, d', h1, h2⟩
  have := (h _ _ h1).trans (h _ _ h2).symm
  cases this

theorem getLtype_mixed {args : List (Leaf D)} : getLtype args = .error .value ↔ Mixed args := by
  rcases getLtype_spec args with ⟨h, hm⟩ | ⟨l, h, ha, _⟩ | ⟨h, hn⟩
  · exact ⟨fun _ => hm, fun _ => h⟩
  · rw [h]
    exact ⟨fun h => (by cases h), fun hm => absurd hm (not_mixed_of_allOf ha)⟩
  · rw [h]
    refine ⟨fun h => (by cases h), ?_⟩
    rintro ⟨d, _, h1, _⟩
    exact absurd h1 (hn _ _)

theorem wrap_ok {ok : Lt → D → Bool} {l : Option Lt} {ds : List D} {r : List (Lt × D)}
    (h : wrap ok l ds = .ok r) :
    r.map Prod.snd = ds ∧ ∀ p ∈ r, some p.1 = l ∧ ok p.1 p.2 = true := by
  induction ds generalizing r with
  | nil => simp only [wrap, Except.ok.injEq] at h; subst h; simp
  | cons d ds ih =>
    cases l with
    | none => simp [wrap] at h
    | some lt =>
      simp only [wrap] at h
      split_ifs at h with hk
      cases hw : wrap ok (some lt) ds with
      | error e => rw [hw] at h; cases h
      | ok r' =>
        rw [hw] at h
        simp only [Except.ok.injEq] at h
        subst h
        obtain ⟨h1, h2⟩ := ih hw
        refine ⟨by simp [h1], ?_⟩
        intro p hp
        rcases List.mem_cons.1 hp with rfl | hp
        · exact ⟨rfl, hk⟩
        · exact h2 p hp

/-! ## C88 -/

/-- Specification: what a function of plain torch sees of an argument, the data without the group. -/
def plain : Leaf D → Leaf D
  | .lie _ d => .tensor d
  | .tensor d => .tensor d
  | .other => .other

theorem raw_eq_plain : (Leaf.raw : Leaf D → Leaf D) = plain := by
  funext x
  cases x <;> rfl

/-- Outside `as_euclidean()`, whatever the torch function computes: a `LieTensor` that comes out
holds what the function computed, passes the check of its type, and its type is that of every
`LieTensor` that went in as a positional argument. -/
theorem dispatch_results_checked {ok : Lt → D → Bool} {c : Cat}
    {f : List (Leaf D) → Option (List D)} {args kwargs : List (Leaf D)} {ts : List (Lt × D)}
    (h : torchFunction false ok c f args kwargs = .ok (.lie ts)) :
    f (args.map plain ++ kwargs.map plain) = some (ts.map Prod.snd) ∧
    ∀ p ∈ ts, ok p.1 p.2 = true ∧ AllOf p.1 args ∧ ∃ d, .lie p.1 d ∈ args := by
  have key (hl : ∀ e, getLtype args ≠ .error e)
      (hf : f (args.map plain ++ kwargs.map plain) = some (ts.map Prod.snd))
      (hw : ∀ l, getLtype args = .ok l → ∀ p ∈ ts, some p.1 = l ∧ ok p.1 p.2 = true) :
      f (args.map plain ++ kwargs.map plain) = some (ts.map Prod.snd) ∧
      ∀ p ∈ ts, ok p.1 p.2 = true ∧ AllOf p.1 args ∧ ∃ d, .lie p.1 d ∈ args := by
    refine ⟨hf, fun p hp => ?_⟩
    rcases getLtype_spec args with ⟨h, -⟩ | ⟨l, h, ha, hd⟩ | ⟨h, hn⟩
    · exact absurd h (hl _)
    · obtain ⟨h1, h2⟩ := hw _ h p hp
      cases h1
      exact ⟨h2, ha, hd⟩
    · obtain ⟨h1, -⟩ := hw _ h p hp
      cases h1
  have main (c : Cat) (hc : c = .safeSuper ∨ c = .getitem false)
      (h : lieImpl ok c f args kwargs = .ok (.lie ts)) :
      f (args.map plain ++ kwargs.map plain) = some (ts.map Prod.snd) ∧
      ∀ p ∈ ts, ok p.1 p.2 = true ∧ AllOf p.1 args ∧ ∃ d, .lie p.1 d ∈ args := by
    rcases hg : getLtype args with e | l
    · rcases hc with rfl | rfl <;> simp [lieImpl, hg] at h
    · rcases hf : f (args.map plain ++ kwargs.map plain) with _ | ds
      · rcases hc with rfl | rfl <;> simp [lieImpl, raw_eq_plain, hg, hf] at h
      · rcases hw : wrap ok l ds with e | r
        · rcases hc with rfl | rfl <;> simp [lieImpl, raw_eq_plain, hg, hf, hw] at h
        · have hr : r = ts := by
            rcases hc with rfl | rfl <;> simpa [lieImpl, raw_eq_plain, hg, hf, hw] using h
          subst hr
          obtain ⟨h1, h2⟩ := wrap_ok hw
          rw [← hf]
          refine key (by simp [hg]) (by rw [hf, h1]) fun l' hl' => ?_
          rw [hg] at hl'
          cases hl'
          exact h2
  simp only [torchFunction, Bool.false_eq_true, if_false] at h
  cases c with
  | safeEucl =>
    simp only [lieImpl, eucl] at h
    split at h
    · cases h
    · split at h <;> cases h
  | unlisted => cases h
  | safeSuper => exact main _ (Or.inl rfl) h
  | gradGet =>
    simp only [lieImpl] at h
    split at h
    · cases h
    · split at h <;> cases h
  | getitem t =>
    cases t with
    | false => exact main _ (Or.inr rfl) h
    | true =>
      simp only [lieImpl] at h
      split at h
      · cases h
      · split at h <;> cases h

/-- Outside `as_euclidean()` a torch function that is not listed raises `NotImplementedError`,
whatever its arguments, and nothing is computed; the functions listed for use on the raw data return
raw tensors; inside, every function returns raw tensors. -/
theorem dispatch_listed_only (ok : Lt → D → Bool) (f : List (Leaf D) → Option (List D))
    (args kwargs : List (Leaf D)) :
    torchFunction false ok .unlisted f args kwargs = .error .notImplemented ∧
    (∀ ctx c, (ctx = true ∨ c = .safeEucl) → ¬ Mixed args →
      ∀ ts, f (args.map plain ++ kwargs.map plain) = some ts →
        torchFunction ctx ok c f args kwargs = .ok (.raw ts)) := by
  refine ⟨rfl, fun ctx c hc hm ts hf => ?_⟩
  have he : eucl f args kwargs = .ok (.raw ts) := by
    unfold eucl
    rw [raw_eq_plain]
    rcases getLtype_spec args with ⟨_, h⟩ | ⟨l, h, _⟩ | ⟨h, _⟩
    · exact absurd h hm
    · rw [h]; simp only; rw [hf]
    · rw [h]; simp only; rw [hf]
  rcases hc with rfl | rfl
  · exact he
  · cases ctx <;> exact he

/-- `LieTensor`s of different types among the positional arguments raise `ValueError`, and nothing is
computed.  The README says that `as_euclidean()` drops all checks of types; it does not drop this
one. -/
theorem dispatch_mixed {args : List (Leaf D)} (hm : Mixed args) (ctx : Bool)
    (ok : Lt → D → Bool) (c : Cat) (hc : ctx = true ∨ c ≠ .unlisted)
    (f : List (Leaf D) → Option (List D)) (kwargs : List (Leaf D)) :
    torchFunction ctx ok c f args kwargs = .error .value := by
  have hg := getLtype_mixed.2 hm
  have he : eucl f args kwargs = .error .value := by simp [eucl, hg]
  cases ctx with
  | true => simpa [torchFunction] using he
  | false =>
    have hc : c ≠ .unlisted := by simpa using hc
    cases c <;> simp_all [torchFunction, lieImpl]

/-- Arguments passed by keyword are not looked at: with the `LieTensor`s only there, a function that
should return a `LieTensor`, such as `torch.cat(tensors=[g, h])`, raises `AttributeError`. -/
theorem dispatch_keywords {args : List (Leaf D)} (ha : ∀ l d, .lie l d ∉ args)
    (ok : Lt → D → Bool) (f : List (Leaf D) → Option (List D)) (kwargs : List (Leaf D)) (d : D)
    (ds : List D) (hf : f (args.map plain ++ kwargs.map plain) = some (d :: ds)) :
    torchFunction false ok .safeSuper f args kwargs = .error .attribute := by
  have hg : getLtype args = .ok none := by
    rcases getLtype_spec args with ⟨_, d, _, h, _⟩ | ⟨l, _, _, d, h⟩ | ⟨h, _⟩
    · exact absurd h (ha _ _)
    · exact absurd h (ha _ _)
    · exact h
  simp [torchFunction, lieImpl, raw_eq_plain, hg, hf, wrap]

/-! ## Non-vacuity -/

/-- `torch.cat` on lists of numbers. -/
def exCat : List (Leaf (List ℕ)) → Option (List (List ℕ)) := fun ls =>
  some [ls.flatMap fun l => match l with | .tensor d => d | _ => []]

example : torchFunction false (fun _ _ => true) .safeSuper exCat [.lie .so3 [1], .lie .so3 [2]] [] =
    .ok (.lie [(.so3, [1, 2])]) := by decide +kernel

example : torchFunction true (fun _ _ => true) .unlisted exCat [.lie .so3 [1], .lie .se3 [2]] [] =
    .error .value ∧ Mixed [.lie .so3 [1], .lie .se3 [2]] :=
  ⟨by decide +kernel, [2], [1], by simp, by simp⟩

example : torchFunction false (fun _ _ => true) .safeSuper exCat [] [.lie .so3 [1], .lie .so3 [2]] =
    .error .attribute := by decide +kernel

end Verif.Lie.Dispatch
