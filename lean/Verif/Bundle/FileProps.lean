import Verif.Bundle.File
import Verif.PoseGraph.FileProps
import Verif.Geometry.SpatialProps
import Verif.Geometry.SO3Near

/-!
# Bundle adjustment problems in files: properties (C99)
-/

namespace Verif.Bundle
open Verif.Geometry
open Verif.PoseGraph (Tok Num)

/-! ### Specification -/

/-- An observation: the numbers of the camera and of the point, and the two coordinates of the feature; whatever follows is
ignored. -/
def IsObs (l : List Tok) (o : Obs) : Prop :=
  ∃ x y rest, l = .int o.cam :: .int o.pt :: x :: y :: rest ∧ Num x (o.feat 0) ∧ Num y (o.feat 1)

/-- Lines with one number each. -/
def IsNums (ls : File) (xs : List ℝ) : Prop := List.Forall₂ (fun l x => ∃ t, l = [t] ∧ Num t x) ls xs

/-- A camera: rotation vector, translation, focal length and the two radial distortion parameters, in nine lines. -/
def IsCamera (eps : ℝ) (ls : File) (c : Camera) : Prop :=
  ∃ a b d x y z, IsNums ls [a, b, d, x, y, z, c.f, c.k1, c.k2] ∧ c.pose.R = SO3.exp eps ![a, b, d] ∧ c.pose.t = ![x, y, z]

/-- A point: three lines. -/
def IsPoint (ls : File) (p : V3) : Prop := IsNums ls [p 0, p 1, p 2]

/-- A BAL file: the numbers of cameras, points and observations, then the observations, the cameras and the points. -/
def IsBal (eps : ℝ) (file : File) (cams : List Camera) (pts : List V3) (obs : List Obs) : Prop :=
  ∃ (nc np no : ℤ) (lo rest : File) (lc lp : List File),
    file = [.int nc, .int np, .int no] :: (lo ++ lc.flatten ++ lp.flatten ++ rest) ∧
    List.Forall₂ IsObs lo obs ∧ obs.length = no.toNat ∧
    List.Forall₂ (IsCamera eps) lc cams ∧ cams.length = nc.toNat ∧
    List.Forall₂ IsPoint lp pts ∧ pts.length = np.toNat

/-- A camera as it is read after it was written. -/
noncomputable def reread (eps epi : ℝ) (c : Camera) : Camera :=
  ⟨⟨SO3.exp eps (SO3.log eps epi c.pose.R), c.pose.t⟩, c.f, c.k1, c.k2⟩

/-! ### Reading -/

theorem bind_ok {α β : Type} {r : Except Exc α} {f : α → Except Exc β} {b : β} :
    bind r f = .ok b ↔ ∃ a, r = .ok a ∧ f a = .ok b := by
  cases r <;> simp [bind]

/-- The reader takes lines that are related to its result by `P`. -/
def Reads {α : Type} (r : Reader α) (P : File → α → Prop) : Prop :=
  ∀ f a rest, r f = .ok (a, rest) ↔ ∃ l, f = l ++ rest ∧ P l a

theorem reads_line {α : Type} {g : List Tok → Except Exc α} (h : ∀ a, g [] ≠ .ok a) :
    Reads (line g) fun ls a => ∃ l, ls = [l] ∧ g l = .ok a := by
  intro f a rest
  unfold line
  rw [bind_ok]
  constructor
  · rintro ⟨b, h1, h2⟩
    injection h2 with h2
    injection h2 with h2 h3
    subst h2 h3
    cases f with
    | nil => exact absurd h1 (h _)
    | cons l ls => exact ⟨[l], rfl, l, rfl, h1⟩
  · rintro ⟨_, rfl, l, rfl, h1⟩
    exact ⟨a, h1, rfl⟩

theorem reads_times {α : Type} {r : Reader α} {P : File → α → Prop} (h : Reads r P) (n : ℕ) :
    Reads (times r n) fun ls as => ∃ gs : List File, ls = gs.flatten ∧ List.Forall₂ P gs as ∧ as.length = n := by
  induction n with
  | zero =>
    intro f as rest
    constructor
    · intro h1
      injection h1 with h1
      injection h1 with h1 h2
      subst h1 h2
      exact ⟨[], rfl, [], rfl, .nil, rfl⟩
    · rintro ⟨_, rfl, gs, rfl, h1, h2⟩
      rw [List.length_eq_zero_iff] at h2
      subst h2
      cases h1
      rfl
  | succ n ih =>
    intro f as rest
    rw [times, bind_ok]
    constructor
    · rintro ⟨⟨a, f'⟩, h1, h2⟩
      rw [bind_ok] at h2
      obtain ⟨⟨bs, f''⟩, h2, h3⟩ := h2
      injection h3 with h3
      injection h3 with h3 h4
      dsimp only at h2 h3 h4
      subst h3 h4
      obtain ⟨l, rfl, hP⟩ := (h _ _ _).1 h1
      obtain ⟨_, rfl, gs, rfl, h5, h6⟩ := (ih _ _ _).1 h2
      exact ⟨l ++ gs.flatten, by rw [List.append_assoc], l :: gs, rfl, .cons hP h5, by simp [h6]⟩
    · rintro ⟨_, rfl, gs, rfl, h1, h2⟩
      cases h1 with
      | nil => simp at h2
      | cons h3 h4 =>
        rename_i l a gs' as'
        refine ⟨(a, gs'.flatten ++ rest), (h _ _ _).2 ⟨l, by simp, h3⟩, bind_ok.2 ⟨(as', rest), ?_, rfl⟩⟩
        exact (ih _ _ _).2 ⟨_, rfl, gs', rfl, h4, by simpa using h2⟩

theorem reads_singletons {α : Type} {r : Reader α} {Q : List Tok → α → Prop}
    (h : Reads r fun ls a => ∃ l, ls = [l] ∧ Q l a) (n : ℕ) :
    Reads (times r n) fun ls as => List.Forall₂ Q ls as ∧ as.length = n := by
  intro f as rest
  rw [reads_times h n]
  constructor
  · rintro ⟨_, rfl, gs, rfl, h1, h2⟩
    refine ⟨_, rfl, ?_, h2⟩
    clear h2
    induction h1 with
    | nil => exact .nil
    | cons h3 _ ih =>
      obtain ⟨l, rfl, h3⟩ := h3
      exact .cons h3 ih
  · rintro ⟨ls, rfl, h1, h2⟩
    refine ⟨ls, rfl, ls.map fun l => [l], ?_, ?_, h2⟩
    · clear h1
      induction ls with
      | nil => rfl
      | cons l ls ih => simpa using ih
    · clear h2
      induction h1 with
      | nil => exact .nil
      | cons h3 _ ih => exact .cons ⟨_, rfl, h3⟩ ih

theorem floatOf_ok {t : Tok} {x : ℝ} : floatOf t = .ok x ↔ Num t x := by
  cases t with
  | int z =>
    constructor
    · intro h; injection h with h; subst h; exact .int z
    · rintro ⟨⟩; rfl
  | real y =>
    constructor
    · intro h; injection h with h; subst h; exact .real y
    · rintro ⟨⟩; rfl
  | word s =>
    constructor
    · intro h; cases h
    · rintro ⟨⟩

theorem intOf_ok {t : Tok} {z : ℤ} : intOf t = .ok z ↔ t = .int z := by
  cases t with
  | int y =>
    constructor
    · intro h; injection h with h; subst h; rfl
    · intro h; injection h with h; subst h; rfl
  | real y => constructor <;> intro h <;> cases h
  | word s => constructor <;> intro h <;> cases h

theorem fieldAt_ok {l : List Tok} {k : ℕ} {t : Tok} : fieldAt l k = .ok t ↔ l[k]? = some t := by
  unfold fieldAt
  cases l[k]? <;> simp

theorem numOf_ok {l : List Tok} {x : ℝ} : numOf l = .ok x ↔ ∃ t, l = [t] ∧ Num t x := by
  constructor
  · intro h
    match l, h with
    | [t], h => exact ⟨t, rfl, floatOf_ok.1 h⟩
  · rintro ⟨t, rfl, h⟩
    exact floatOf_ok.2 h

theorem obsOf_ok {l : List Tok} {o : Obs} : obsOf l = .ok o ↔ IsObs l o := by
  simp only [obsOf, bind_ok, fieldAt_ok, floatOf_ok, intOf_ok]
  constructor
  · rintro ⟨t2, h2, x, hx, t3, h3, y, hy, t0, h0, i, rfl, t1, h1, j, rfl, ho⟩
    injection ho with ho
    subst ho
    match l, h2, h3, h0, h1 with
    | a :: b :: c :: d :: rest, h2, h3, h0, h1 =>
      simp only [List.getElem?_cons_zero, List.getElem?_cons_succ, Option.some.injEq] at h0 h1 h2 h3
      subst h0 h1 h2 h3
      exact ⟨_, _, rest, rfl, hx, hy⟩
  · rintro ⟨x, y, rest, rfl, hx, hy⟩
    refine ⟨x, rfl, _, hx, y, rfl, _, hy, _, rfl, _, rfl, _, rfl, _, rfl, ?_⟩
    congr 1
    ext k
    · rfl
    · rfl
    · fin_cases k <;> rfl

theorem header_ok {l : List Tok} {h : ℤ × ℤ × ℤ} : header l = .ok h ↔ l = [.int h.1, .int h.2.1, .int h.2.2] := by
  constructor
  · intro h1
    match l, h1 with
    | [a, b, c], h1 =>
      simp only [header, bind_ok, intOf_ok] at h1
      obtain ⟨i, rfl, j, rfl, k, rfl, h1⟩ := h1
      injection h1 with h1
      subst h1
      rfl
  · rintro rfl
    rfl

theorem reads_nums (n : ℕ) : Reads (times (line numOf) n) fun ls xs => IsNums ls xs ∧ xs.length = n := by
  refine reads_singletons (Q := fun l x => ∃ t, l = [t] ∧ Num t x) ?_ n
  intro f a rest
  rw [reads_line (g := numOf) (fun a h => by cases h)]
  simp only [numOf_ok]

theorem reads_camera (eps : ℝ) : Reads (cameraReader eps) (IsCamera eps) := by
  intro f c rest
  unfold cameraReader
  rw [bind_ok]
  constructor
  · rintro ⟨⟨xs, f'⟩, h1, h2⟩
    injection h2 with h2
    injection h2 with h2 h3
    dsimp only at h2 h3
    subst h3
    obtain ⟨l, rfl, h4, h5⟩ := (reads_nums 9 _ _ _).1 h1
    match xs, h5 with
    | [a, b, d, x, y, z, u, v, w], _ =>
      subst h2
      refine ⟨l, rfl, a, b, d, x, y, z, h4, ?_, ?_⟩ <;> rfl
  · rintro ⟨l, rfl, a, b, d, x, y, z, h1, h2, h3⟩
    refine ⟨(_, rest), (reads_nums 9 _ _ _).2 ⟨l, rfl, h1, rfl⟩, ?_⟩
    congr 2
    ext1
    · ext1
      · exact h2.symm
      · exact h3.symm
    all_goals rfl

theorem reads_point : Reads pointReader IsPoint := by
  intro f p rest
  unfold pointReader
  rw [bind_ok]
  constructor
  · rintro ⟨⟨xs, f'⟩, h1, h2⟩
    injection h2 with h2
    injection h2 with h2 h3
    dsimp only at h2 h3
    subst h3
    obtain ⟨l, rfl, h4, h5⟩ := (reads_nums 3 _ _ _).1 h1
    match xs, h5 with
    | [x, y, z], _ =>
      subst h2
      exact ⟨l, rfl, h4⟩
  · rintro ⟨l, rfl, h1⟩
    refine ⟨(_, rest), (reads_nums 3 _ _ _).2 ⟨l, rfl, h1, rfl⟩, ?_⟩
    congr 2
    funext k
    fin_cases k <;> rfl

/-- **`load_bal_dataset` reads exactly the BAL files**, and returns the cameras, points and observations that they list, in
order. Every other file raises. -/
theorem load_iff (eps : ℝ) (file : File) (cams : List Camera) (pts : List V3) (obs : List Obs) :
    loadBal eps file = .ok (cams, pts, obs) ↔ IsBal eps file cams pts obs := by
  have hobs : ∀ n, Reads (times (line obsOf) n) fun ls os => List.Forall₂ IsObs ls os ∧ os.length = n := fun n => by
    refine reads_singletons (Q := IsObs) ?_ n
    intro f a rest
    rw [reads_line (g := obsOf) (fun a h => by cases h)]
    simp only [obsOf_ok]
  simp only [loadBal, bind_ok]
  constructor
  · rintro ⟨⟨⟨nc, np, no⟩, f1⟩, h1, ⟨o, f2⟩, h2, ⟨c, f3⟩, h3, ⟨p, f4⟩, h4, h5⟩
    injection h5 with h5
    injection h5 with h5 h6
    injection h6 with h6 h7
    dsimp only at h1 h2 h3 h4 h5 h6 h7
    subst h5 h6 h7
    obtain ⟨_, rfl, l, rfl, h1'⟩ := (reads_line (g := header) (fun a h => by cases h) _ _ _).1 h1
    rw [header_ok] at h1'
    subst h1'
    obtain ⟨lo, rfl, ho, ho'⟩ := (hobs _ _ _ _).1 h2
    obtain ⟨_, rfl, lc, rfl, hc, hc'⟩ := (reads_times (reads_camera eps) _ _ _ _).1 h3
    obtain ⟨_, rfl, lp, rfl, hp, hp'⟩ := (reads_times reads_point _ _ _ _).1 h4
    exact ⟨nc, np, no, lo, f4, lc, lp, by simp, ho, ho', hc, hc', hp, hp'⟩
  · rintro ⟨nc, np, no, lo, rest, lc, lp, rfl, h2, h2', h3, h3', h4, h4'⟩
    refine ⟨((nc, np, no), lo ++ lc.flatten ++ lp.flatten ++ rest), ?_, (obs, lc.flatten ++ lp.flatten ++ rest), ?_,
      (cams, lp.flatten ++ rest), ?_, (pts, rest), ?_, rfl⟩
    · exact (reads_line (g := header) (fun a h => by cases h) _ _ _).2 ⟨_, rfl, _, rfl, header_ok.2 rfl⟩
    · exact (hobs _ _ _ _).2 ⟨lo, by simp, h2, h2'⟩
    · exact (reads_times (reads_camera eps) _ _ _ _).2 ⟨_, by simp, lc, rfl, h3, h3'⟩
    · exact (reads_times reads_point _ _ _ _).2 ⟨_, rfl, lp, rfl, h4, h4'⟩

/-! ### Writing -/

theorem writeAll_map {α : Type} (g : Item → Except Exc File) (mk : α → Item) (w : α → File) (h : ∀ a, g (mk a) = .ok (w a))
    (as : List α) : writeAll g (as.map mk) = ((as.map w).flatten, none) := by
  induction as with
  | nil => rfl
  | cons a as ih => simp only [List.map_cons, writeAll, h, ih, List.flatten_cons]

theorem save_ok (eps epi : ℝ) (cams : List Camera) (pts : List V3) (obs : List Obs) :
    saveBal eps epi (some (cams.map .cam)) (some (pts.map .pt)) obs =
      ([.int cams.length, .int pts.length, .int obs.length] :: (obs.map obsLine ++
        (cams.map fun c => (List.finRange 9).map fun k => [Tok.real (toParams eps epi c k)]).flatten ++
        (pts.map fun p => (List.finRange 3).map fun k => [Tok.real (p k)]).flatten), none) := by
  unfold saveBal
  dsimp only
  rw [writeAll_map (cameraLines eps epi) Item.cam (fun c => (List.finRange 9).map fun k => [.real (toParams eps epi c k)])
    (fun _ => rfl), writeAll_map pointLines Item.pt (fun p => (List.finRange 3).map fun k => [.real (p k)]) (fun _ => rfl)]
  simp

/-- **Writing and reading**: a problem that is saved can be loaded; the points and observations are the same, and of every
camera all but the rotation, which has gone through `log_map` and `exp_map`. -/
theorem save_load (eps epi : ℝ) (cams : List Camera) (pts : List V3) (obs : List Obs) :
    ∃ file, saveBal eps epi (some (cams.map .cam)) (some (pts.map .pt)) obs = (file, none) ∧
      loadBal eps file = .ok (cams.map (reread eps epi), pts, obs) := by
  refine ⟨_, save_ok eps epi cams pts obs, (load_iff _ _ _ _ _).2 ?_⟩
  refine ⟨cams.length, pts.length, obs.length, obs.map obsLine, [],
    cams.map fun c => (List.finRange 9).map fun k => [Tok.real (toParams eps epi c k)],
    pts.map fun p => (List.finRange 3).map fun k => [Tok.real (p k)], by simp, ?_, by simp, ?_, by simp, ?_, by simp⟩
  · rw [List.forall₂_map_left_iff, List.forall₂_same]
    exact fun o _ => ⟨_, _, [], rfl, .real _, .real _⟩
  · rw [List.forall₂_map_left_iff, List.forall₂_map_right_iff, List.forall₂_same]
    intro c _
    set r := SO3.log eps epi c.pose.R with hr
    refine ⟨r 0, r 1, r 2, c.pose.t 0, c.pose.t 1, c.pose.t 2, ?_, ?_, ?_⟩
    · have : (List.finRange 9).map (fun k => [Tok.real (toParams eps epi c k)]) =
          [[.real (r 0)], [.real (r 1)], [.real (r 2)], [.real (c.pose.t 0)], [.real (c.pose.t 1)], [.real (c.pose.t 2)],
            [.real c.f], [.real c.k1], [.real c.k2]] := rfl
      rw [this]
      simp only [IsNums, reread]
      repeat' first
        | exact List.Forall₂.nil
        | refine List.Forall₂.cons ⟨_, rfl, .real _⟩ ?_
    · have : ![r 0, r 1, r 2] = r := by funext k; fin_cases k <;> rfl
      rw [this]
      rfl
    · funext k; fin_cases k <;> rfl
  · rw [List.forall₂_map_left_iff, List.forall₂_same]
    intro p _
    have : (List.finRange 3).map (fun k => [Tok.real (p k)]) = [[.real (p 0)], [.real (p 1)], [.real (p 2)]] := rfl
    rw [this]
    exact .cons ⟨_, rfl, .real _⟩ (.cons ⟨_, rfl, .real _⟩ (.cons ⟨_, rfl, .real _⟩ .nil))

/-- **The problem that is loaded is the one that was saved**, if the angles of all rotations are at least the threshold of
`exp_map` (rotations by a half turn must not have the tied axes at which `log_map` divides by zero). -/
theorem save_load_exact_partial {eps epi : ℝ} (he : 0 < eps) (hpi : 0 ≤ epi) (cams : List Camera) (pts : List V3)
    (obs : List Obs) (hv : ∀ c ∈ cams, c.pose.R.transpose * c.pose.R = 1 ∧ c.pose.R.det = 1)
    (hθ : ∀ c ∈ cams, eps ≤ SO3.theta c.pose.R)
    (ht : ∀ c ∈ cams, 1 + SO3.cosine c.pose.R ≤ epi → ¬ SO3.TieAxis c.pose.R) :
    ∃ file, saveBal eps epi (some (cams.map .cam)) (some (pts.map .pt)) obs = (file, none) ∧
      loadBal eps file = .ok (cams, pts, obs) := by
  obtain ⟨file, h1, h2⟩ := save_load eps epi cams pts obs
  refine ⟨file, h1, h2.trans ?_⟩
  have : cams.map (reread eps epi) = cams := by
    conv_rhs => rw [← List.map_id cams]
    refine List.map_congr_left fun c hc => ?_
    ext1
    · ext1
      · exact (so3_exp_log_partial he hpi (hv c hc) (hθ c hc) (ht c hc)).1
      · rfl
    all_goals rfl
  rw [this]

/-- Below the threshold, the entries of the rotation change by at most half the cube of the angle. -/
theorem save_load_near {eps epi : ℝ} (he1 : eps ≤ 1 / 2) (hpi : epi ≤ 1) {c : Camera}
    (hv : c.pose.R.transpose * c.pose.R = 1 ∧ c.pose.R.det = 1) (hθ : SO3.theta c.pose.R < eps) (i j : Fin 3) :
    |(reread eps epi c).pose.R i j - c.pose.R i j| ≤ eps ^ 3 / 2 := by
  have hV : SO3.Valid c.pose.R := hv
  have h1 := SO3.exp_log_near he1 hpi hV hθ i j
  have h2 := pow_le_pow_left₀ hV.theta_nonneg hθ.le 3
  exact h1.trans (by linarith)

/-! ### Ground truth -/

/-- **A defect.** `load_from_file` with a file for the ground truth returns its cameras as `gt_points` and its points as
`gt_cameras`. -/
theorem gt_swapped {eps : ℝ} {path gt : File} {d : Dataset} (h : loadFromFile eps path (some gt) = .ok d) :
    ∃ cams pts obs gcams gpts gobs, IsBal eps path cams pts obs ∧ IsBal eps gt gcams gpts gobs ∧
      d.cameras = cams.map .cam ∧ d.points = pts.map .pt ∧ d.observations = obs ∧
      d.gtCameras = some (gpts.map .pt) ∧ d.gtPoints = some (gcams.map .cam) := by
  simp only [loadFromFile, bind_ok] at h
  obtain ⟨⟨cams, pts, obs⟩, h1, ⟨gcams, gpts, gobs⟩, h2, h3⟩ := h
  injection h3 with h3
  subst h3
  exact ⟨cams, pts, obs, gcams, gpts, gobs, (load_iff _ _ _ _ _).1 h1, (load_iff _ _ _ _ _).1 h2, rfl, rfl, rfl, rfl, rfl⟩

/-- Without such a file there is no ground truth. -/
theorem load_no_gt {eps : ℝ} {path : File} {d : Dataset} : loadFromFile eps path none = .ok d ↔
    ∃ cams pts obs, IsBal eps path cams pts obs ∧ d = ⟨cams.map .cam, pts.map .pt, obs, none, none⟩ := by
  simp only [loadFromFile, bind_ok]
  constructor
  · rintro ⟨⟨cams, pts, obs⟩, h1, h3⟩
    injection h3 with h3
    exact ⟨cams, pts, obs, (load_iff _ _ _ _ _).1 h1, h3.symm⟩
  · rintro ⟨cams, pts, obs, h1, rfl⟩
    exact ⟨(cams, pts, obs), (load_iff _ _ _ _ _).2 h1, rfl⟩

/-- So a problem with at least one camera and its ground truth is never what is loaded after `save_to_file`. -/
theorem gt_not_restored (eps epi : ℝ) (cams gcams : List Camera) (pts gpts : List V3) (obs : List Obs) (hg : gcams ≠ []) :
    let d : Dataset := ⟨cams.map .cam, pts.map .pt, obs, some (gcams.map .cam), some (gpts.map .pt)⟩
    ∃ f g, saveToFile eps epi d true = (f, some g, none) ∧
      ∃ d', loadFromFile eps f (some g) = .ok d' ∧ d'.gtCameras = some (gpts.map .pt) ∧ d'.gtCameras ≠ d.gtCameras ∧
        -- saving again raises if there is a point
        (gpts ≠ [] → (saveToFile eps epi d' true).2.2 = some .attribute) := by
  intro d
  obtain ⟨f, h1, h2⟩ := save_load eps epi cams pts obs
  obtain ⟨g, h3, h4⟩ := save_load eps epi gcams gpts obs
  refine ⟨f, g, ?_, ⟨(cams.map (reread eps epi)).map .cam, pts.map .pt, obs, some (gpts.map .pt),
    some ((gcams.map (reread eps epi)).map .cam)⟩, ?_, rfl, ?_, fun hp => ?_⟩
  · unfold saveToFile
    rw [h1]
    simp only [d, h3, if_true]
  · unfold loadFromFile
    rw [h2]
    simp only [bind]
    rw [h4]
  · intro h
    simp only [d, Option.some.injEq] at h
    cases gcams with
    | nil => exact hg rfl
    | cons c cs =>
      cases gpts with
      | nil => simp at h
      | cons p ps => simp at h
  · unfold saveToFile
    rw [save_ok]
    simp only [if_true]
    cases gpts with
    | nil => exact absurd rfl hp
    | cons p ps => simp [saveBal, writeAll, cameraLines]

/-- Saving the ground truth of a problem without one raises, and leaves an empty file. -/
theorem save_no_gt_raises (eps epi : ℝ) (cams : List Camera) (pts : List V3) (obs : List Obs) :
    (saveToFile eps epi ⟨cams.map .cam, pts.map .pt, obs, none, none⟩ true).2 = (some [], some .type) := by
  unfold saveToFile
  rw [save_ok]
  rfl

/-! ### Non-vacuity -/

/-- A file with one camera, one point and one observation. -/
example : ∃ cams pts obs, loadBal 1 [[.int 1, .int 1, .int 1], [.int 0, .int 0, .real 5, .int 7], [.int 0], [.int 0], [.int 0],
    [.real 1], [.real 2], [.real 3], [.int 1000], [.int 0], [.int 0], [.int 4], [.int 5], [.int 6]] = .ok (cams, pts, obs) ∧
    obs.map Obs.cam = [0] ∧ pts.length = 1 ∧ cams.map Camera.f = [1000] := by
  refine ⟨_, _, _, rfl, rfl, rfl, ?_⟩
  simp [fromParams]

/-- A quarter turn around the first axis meets the hypotheses of `save_load_exact_partial`. -/
example : ∃ c : Camera, (c.pose.R.transpose * c.pose.R = 1 ∧ c.pose.R.det = 1) ∧ (1 : ℝ) / 100 ≤ SO3.theta c.pose.R ∧
    (1 + SO3.cosine c.pose.R ≤ (0 : ℝ) → ¬ SO3.TieAxis c.pose.R) := by
  refine ⟨⟨⟨!![1, 0, 0; 0, 0, -1; 0, 1, 0], 0⟩, 1, 0, 0⟩, ⟨?_, ?_⟩, ?_, ?_⟩
  · ext i j; fin_cases i <;> fin_cases j <;> simp [Matrix.mul_apply, Fin.sum_univ_three]
  · simp [Matrix.det_fin_three]
  · have hV : SO3.Valid !![1, 0, 0; 0, 0, -1; 0, 1, 0] := by
      refine ⟨?_, ?_⟩
      · ext i j; fin_cases i <;> fin_cases j <;> simp [Matrix.mul_apply, Fin.sum_univ_three]
      · simp [Matrix.det_fin_three]
    have hc := hV.cos_theta
    by_contra hlt
    push Not at hlt
    have h1 : SO3.cosine !![1, 0, 0; 0, 0, -1; 0, 1, 0] = 0 := by
      simp [SO3.cosine]
    rw [h1] at hc
    have : 0 < Real.cos (SO3.theta !![1, 0, 0; 0, 0, -1; 0, 1, 0]) :=
      Real.cos_pos_of_mem_Ioo ⟨by linarith [hV.theta_nonneg, Real.pi_pos], by
        have := Real.pi_gt_three
        dsimp only at hlt
        linarith⟩
    linarith
  · intro h
    exfalso
    simp [SO3.cosine] at h
    linarith

end Verif.Bundle
