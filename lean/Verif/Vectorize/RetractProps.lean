import Verif.Vectorize.Retract
/-!
# Vectorized retraction equals sequential retraction (C17)

`rf` is the retraction of each class and `dof`; `RowWise rf f` says that it treats the batch elements
one by one.  `G` gives the class and `dof` of each variable.  The sequential retraction is the one of
C16 (`Verif/Update`).
-/
namespace Verif.Vectorize
open Verif Verif.Objective Verif.Update

variable {ρ δ : Type}

namespace RetractEx
/-- two variables of one class around one of another class -/
def G : Geo := ⟨fun v => v.id % 2, fun v => 1 + v.id % 2⟩
def v1 : Var := { id := 1, name := 1 }
def v2 : Var := { id := 2, name := 2 }
def v3 : Var := { id := 3, name := 3 }
def heap : Heap Nat := fun v => ⟨{ rows := [100 * v.id, 100 * v.id + 50] }, 0⟩
def f (cls _dof : Nat) (x : Nat) (d : List Nat) : Nat := (cls + 1) * x + d.sum
/-- a retraction that, like the code's, broadcasts a batch of one variable -/
def rf : ClsRetract Nat Nat := fun cls dof t dl =>
  .ok { t with rows := if t.rows.length = 1 then dl.map (f cls dof (t.rows.headD 0))
    else List.zipWith (f cls dof) t.rows dl }
theorem rf_rowWise : RowWise rf f := by
  intro cls dof t dl h _
  unfold rf
  congr 2
  split
  · rename_i h1
    obtain ⟨a, ha⟩ := List.length_eq_one_iff.1 h1
    rw [h1] at h
    obtain ⟨b, rfl⟩ := List.length_eq_one_iff.1 h.symm
    simp [ha]
  · rfl
def delta : List (List Nat) := [[1, 2, 3, 4, 5], [6, 7, 8, 9, 10]]
end RetractEx

/-- C17: whenever the vectorized retraction of an ordering of distinct variables succeeds, the
sequential retraction succeeds too and leaves exactly the same tensors (and update counters) in all
variables, for every mask and `force_update`. -/
theorem retract_vectorized_eq_sequential {rf : ClsRetract ρ δ} {f : Nat → Nat → ρ → List δ → ρ}
    (hrf : RowWise rf f) (G : Geo) (h h' : Heap ρ) (delta : List (List δ)) (ord : List Var)
    (hnd : ord.Nodup) (mask : Option (List Bool)) (force : Bool)
    (hok : retractVec rf G h delta ord mask force = (h', none)) :
    retractVars (fun v => rf (G.cls v) (G.dof v)) h delta (ord.map fun v => (v, G.dof v)) mask force
      = (h', none) := by
  unfold retractVec at hok
  cases hg : groupVars G h delta 0 none ord [] with
  | error x => rw [hg] at hok; simp at hok
  | ok r =>
  obtain ⟨B', d'⟩ := r
  rw [hg] at hok; simp only at hok
  obtain ⟨m1, m2, m3, m4, m5⟩ := groups_mem G h delta ord hnd B' d' hg
  have hfst : ∀ q ∈ d', ∀ p ∈ q.2, p.1 ∈ ord := by
    intro q hq p hp
    rw [← sliced_fst G delta 0 ord]
    exact List.mem_map_of_mem ((m1 p).2 ⟨q, hq, hp⟩)
  obtain ⟨s1, s2⟩ := retractGroups_spec hrf (B'.getD 0) mask force d' m4 h h'
    (fun q hq p hp => by rw [m5 _ (hfst q hq p hp)]; rfl) delta.length
    (fun q hq p hp => sliced_len G delta 0 ord p ((m1 p).2 ⟨q, hq, hp⟩)) hok
  unfold retractVars
  apply retractFrom_of hrf G mask force delta 0 ord hnd h h'
  · intro p hp
    obtain ⟨q, hq, hpq⟩ := (m1 p).1 hp
    obtain ⟨a, b, c⟩ := s1 q hq p hpq
    rw [m2 q hq p hpq] at b c
    refine ⟨?_, b, c⟩
    rw [a, m5 _ (hfst q hq p hpq)]; rfl
  · intro v hv
    apply s2
    intro q hq hmem
    obtain ⟨p, hp, rfl⟩ := List.mem_map.1 hmem
    exact hv (hfst q hq p hp)

/-- C17: and it does succeed whenever the sequential one does and all variables of the ordering have
the batch size of `delta`, `delta` has a column for each degree of freedom, and variables of the same
class and `dof` have tensors of the same shape. -/
theorem retract_vectorized_succeeds {rf : ClsRetract ρ δ} {f : Nat → Nat → ρ → List δ → ρ}
    (hrf : RowWise rf f) (G : Geo) (h : Heap ρ) (delta : List (List δ)) (ord : List Var)
    (hnd : ord.Nodup) (mask : Option (List Bool)) (force : Bool)
    (hB : ∀ v ∈ ord, (h v).tensor.rows.length = delta.length)
    (hw : ∀ r ∈ delta, (ord.map G.dof).sum ≤ r.length)
    (hsh : ∀ u ∈ ord, ∀ v ∈ ord, G.cls u = G.cls v → G.dof u = G.dof v →
      (h u).tensor.trail = (h v).tensor.trail ∧ (h u).tensor.dtype = (h v).tensor.dtype ∧
      (h u).tensor.device = (h v).tensor.device)
    (hok : (retractVars (fun v => rf (G.cls v) (G.dof v)) h delta
      (ord.map fun v => (v, G.dof v)) mask force).2 = none) :
    retractVec rf G h delta ord mask force =
      retractVars (fun v => rf (G.cls v) (G.dof v)) h delta (ord.map fun v => (v, G.dof v))
        mask force := by
  have key : (retractVec rf G h delta ord mask force).2 = none := by
    unfold retractVec
    obtain ⟨⟨B', d'⟩, hg⟩ := groupVars_ok G h delta 0 none delta.length (Or.inl rfl) ord [] hB
    rw [hg]; simp only
    obtain ⟨m1, m2, m3, m4, m5⟩ := groups_mem G h delta ord hnd B' d' hg
    have hfst : ∀ q ∈ d', ∀ p ∈ q.2, p.1 ∈ ord := by
      intro q hq p hp
      rw [← sliced_fst G delta 0 ord]
      exact List.mem_map_of_mem ((m1 p).2 ⟨q, hq, hp⟩)
    have hBB : ∀ v ∈ ord, B'.getD 0 = delta.length := by
      intro v hv; rw [m5 v hv]; simp [rowsOf, hB v hv]
    apply retractGroups_ok hrf (B'.getD 0) mask force d' m4 h m3
    · intro q hq p hp; rw [hBB _ (hfst q hq p hp), hB _ (hfst q hq p hp)]
    · intro q hq p hp
      have hps := (m1 p).2 ⟨q, hq, hp⟩
      rw [hBB _ (hfst q hq p hp), m2 q hq p hp]
      exact ⟨sliced_len G delta 0 ord p hps, sliced_width G delta 0 ord (by simpa using hw) p hps⟩
    · intro q hq p hp p' hp'
      have e := (m2 q hq p hp).symm.trans (m2 q hq p' hp')
      simp only [Geo.key, Prod.mk.injEq] at e
      exact hsh _ (hfst q hq p hp) _ (hfst q hq p' hp') e.1 e.2
    · intro q hq p hp
      have hps := (m1 p).2 ⟨q, hq, hp⟩
      -- the sequential retraction stores the same tensor
      have hsl : ∀ (idx : Nat) (ord : List Var), ∀ p ∈ sliced G delta idx ord, ∃ pre post,
          (ord.map fun v => (v, G.dof v)) = pre ++ (p.1, G.dof p.1) :: post ∧
          p.2 = slice delta (idx + (pre.map Prod.snd).sum) (G.dof p.1) := by
        intro idx ord
        induction ord generalizing idx with
        | nil => simp [sliced]
        | cons u us ih =>
          intro p hp
          simp only [sliced, List.mem_cons] at hp
          rcases hp with rfl | hp
          · exact ⟨[], us.map fun v => (v, G.dof v), by simp, by simp⟩
          · obtain ⟨pre, post, a, b⟩ := ih _ p hp
            exact ⟨(u, G.dof u) :: pre, post, by simp [a], by simp [b, Nat.add_assoc]⟩
      obtain ⟨pre, post, e1, e2⟩ := hsl 0 ord p hps
      have hnd' : ((ord.map fun v => (v, G.dof v)).map Prod.fst).Nodup := by
        simpa [Function.comp_def] using hnd
      obtain ⟨t, ht, hst⟩ := (retract_own_slice _ h delta _ hnd' mask force hok).1 pre p.1 _ post e1
      rw [Nat.zero_add] at e2
      rw [← e2] at ht
      rw [hrf _ _ _ _ (by rw [hB _ (hfst q hq p hp), sliced_len G delta 0 ord p hps])
        (sliced_width G delta 0 ord (by simpa using hw) p hps)] at ht
      cases ht
      rw [m2 q hq p hp]
      exact ⟨_, hst⟩
  have := retract_vectorized_eq_sequential hrf G h (retractVec rf G h delta ord mask force).1 delta ord
    hnd mask force (by rw [← key])
  rw [this, ← key]

example : let r := retractVec RetractEx.rf RetractEx.G RetractEx.heap RetractEx.delta [RetractEx.v1, RetractEx.v2, RetractEx.v3] (some [false, true]) false
    r.2 = none ∧ (r.1 RetractEx.v1).tensor.rows = [203, 150] ∧ (r.1 RetractEx.v2).tensor.rows = [203, 250] ∧
    (r.1 RetractEx.v3).tensor.rows = [609, 350] := by decide
example : RowWise RetractEx.rf RetractEx.f ∧ [RetractEx.v1, RetractEx.v2, RetractEx.v3].Nodup := ⟨RetractEx.rf_rowWise, by decide⟩

/-- C17, where it stops: if one optimization variable has batch size 1 while `delta` has more batch
elements, the sequential retraction broadcasts that variable, but the vectorized one raises
`AssertionError`. -/
theorem retract_vectorized_no_broadcast : ∃ (h : Heap Nat) (ord : List Var),
    ord.Nodup ∧
    (retractVars (fun v => RetractEx.rf (RetractEx.G.cls v) (RetractEx.G.dof v)) h RetractEx.delta
      (ord.map fun v => (v, RetractEx.G.dof v)) none false).2 = none ∧
    (retractVec RetractEx.rf RetractEx.G h RetractEx.delta ord none false).2 = some .assertionError :=
  ⟨RetractEx.heap.put RetractEx.v3 ⟨{ rows := [7] }, 0⟩, [RetractEx.v1, RetractEx.v2, RetractEx.v3], by decide, by decide, by decide⟩

end Verif.Vectorize
