/-
C122: start systems and archives.
-/
import Verif.Infra.ArchiveStart
import Verif.Infra.PropsArchive

namespace B2.Infra.Arch

/-- A class can be archived: whatever is written (all of whose nodes can be written) is read back as the same object, up to
the names of nodes.  `m` renames the nodes of an object and `R` lists its pointers. -/
def Archivable {X : Type} (w : X → List Fld) (r : Rd X) (m : (Addr → Addr) → X → X) (R : X → List Ptr)
    (valid : X → Prop) : Prop :=
  ∀ (H : Addr → Obj) (x : X), valid x → Acyclic H (R x) → (∀ a, Reach H (R x) a → (H a).Plain) →
    ∃ n₀, ∀ n ≥ n₀, ∃ st φ, archive w r H n x = some (m φ x, st) ∧ SameNodes H (R x) st φ

def TotalDeg.map (φ : Addr → Addr) (t : TotalDeg) : TotalDeg :=
  { t with base := t.base.map φ, randoms := t.randoms.map (Option.map φ) }

def TotalDeg.roots (t : TotalDeg) : List Ptr := t.base.roots ++ t.randoms

def MHomog.map (φ : Addr → Addr) (t : MHomog) : MHomog :=
  { t with base := t.base.map φ, varGroups := t.varGroups.map (List.map (Option.map φ)),
           linprods := t.linprods.map (List.map (Option.map φ)) }

def MHomog.roots (t : MHomog) : List Ptr := t.base.roots ++ t.varGroups.flatten ++ t.linprods.flatten

def UserStart.map (φ : Addr → Addr) (t : UserStart) : UserStart := { t with system := t.system.map φ }

/-- What the constructors make. -/
def UserStart.Made (t : UserStart) : Prop := ∃ s pts, t = .ofDbl s pts ∨ t = .ofMp s pts

/-- C122 in full: all start systems can be archived. -/
def C122_full : Prop :=
  Archivable wTotalDeg rTotalDeg TotalDeg.map TotalDeg.roots (fun _ => True) ∧
  Archivable wMHomog rMHomog MHomog.map MHomog.roots (fun _ => True) ∧
  Archivable wUser rUser UserStart.map (fun t => t.system.roots) UserStart.Made

theorem cTotalDeg : Codec wTotalDeg rTotalDeg := by
  intro a rest
  simp only [wTotalDeg, List.append_assoc]
  unfold rTotalDeg
  rw [cSys.step, (cList cPtr).step, (cList cNat).step]
  rfl

/-- C122 for total degree start systems: everything is read back, in particular degrees, the random numbers and the nodes.
Missing: the other two kinds, for which it is false. -/
theorem C122_partial : Archivable wTotalDeg rTotalDeg TotalDeg.map TotalDeg.roots (fun _ => True) := by
  intro H x _ hac hpl
  refine archive_same wTotalDeg rTotalDeg TotalDeg.map x.roots cTotalDeg ?_ H x ?_ hac hpl
  · intro φ t
    simp only [wTotalDeg, TotalDeg.map, List.map_append, wSys_map, wList_map φ (wPtr_map φ), wList_map_id φ (wNat_map φ)]
  · intro a
    have h1 : Fld.ptr (some a) ∈ wList wPtr x.randoms ↔ some a ∈ x.randoms := by simp [wList, wPtr]
    have h2 : Fld.ptr (some a) ∉ wList wNat x.degrees := by simp [wList, wNat]
    simp only [wTotalDeg, List.mem_append, roots_iff, h1, h2, or_false, TotalDeg.roots]

/-- `x² - 3` with its random number 3. -/
def Htd : Addr → Obj
  | 0 => .var "x"
  | 1 => .rat 3 0
  | 2 => .ipow (some 0) 2
  | 3 => .sum [some 2, some 1] [true, false]
  | 4 => .fn "f" (some 3)
  | _ => .int 0

def Std : TotalDeg := ⟨sysOf [some 0] [some 4] [], [some 1], [2]⟩

theorem htd_rank (a b : Addr) (h : some b ∈ (Htd a).kids) : b < a := by
  match a with
  | 0 | 1 => simp [Htd, Obj.kids] at h
  | 2 => simp [Htd, Obj.kids] at h; subst h; decide
  | 3 => simp [Htd, Obj.kids] at h; rcases h with rfl | rfl <;> decide
  | 4 => simp [Htd, Obj.kids] at h; subst h; decide
  | _ + 5 => simp [Htd, Obj.kids] at h

/-- The hypotheses hold for it. -/
example : ∃ n₀, ∀ n ≥ n₀, ∃ st φ, archive wTotalDeg rTotalDeg Htd n Std = some (Std.map φ, st) ∧
    SameNodes Htd Std.roots st φ :=
  C122_partial Htd Std trivial ⟨id, fun a b _ h => htd_rank a b h⟩ fun a _ => by
    match a with
    | 0 | 1 | 2 | 3 | 4 | _ + 5 => trivial

/-- The random number is shared between the function and the list of random numbers in the copy too. -/
example : (archive wTotalDeg rTotalDeg Htd 10 Std).map (fun r => (r.1.randoms, r.2)) =
    some ([some 4], [.var "x", .fn "f" (some 2), .sum [some 3, some 4] [true, false], .ipow (some 0) 2, .rat 3 0]) := by
  decide +kernel

/-- Results of a reading program. -/
theorem runRd_bind {α β : Type} (lp : List Tok → List Obj → Option (Ptr × List Tok × List Obj)) (r : Rd α) (f : α → Rd β)
    (ts : List Tok) (st : List Obj) :
    runRd lp (r.bind f) ts st = (runRd lp r ts st).bind fun x => runRd lp (f x.1) x.2.1 x.2.2 := by
  induction r generalizing ts st with
  | done a => rfl
  | fail => rfl
  | tok k ih =>
    cases ts with
    | nil => rfl
    | cons t ts => exact ih t ts st
  | ptr k ih =>
    simp only [Rd.bind, runRd]
    cases lp ts st with
    | none => rfl
    | some x => exact ih x.1 x.2.1 x.2.2

/-- A multihomogeneous start system read from any archive has no start points; its tables are empty. -/
theorem C122_mhom_empty (H : Addr → Obj) (n : ℕ) (x x' : MHomog) (st : List Obj)
    (h : archive wMHomog rMHomog H n x = some (x', st)) :
    x'.numPoints = 0 ∧ x'.linprods = [] ∧ x'.partitions = [] ∧ x'.degreeMatrix = [] ∧ x'.varGroups = [] := by
  unfold archive at h
  cases hs : saveFlds (savePtr H n) (wMHomog x) [] with
  | none => simp [hs] at h
  | some w =>
    obtain ⟨ts, seen⟩ := w
    simp only [hs, rMHomog, runRd_bind] at h
    cases h1 : runRd (loadPtr n) rSys ts [] with
    | none => simp [h1] at h
    | some y =>
      simp only [h1, Option.bind_some] at h
      cases h2 : runRd (loadPtr n) (rList rNat) y.2.1 y.2.2 with
      | none => simp [h2] at h
      | some z =>
        simp only [h2, Option.bind_some, runRd, Option.some.injEq, Prod.mk.injEq] at h
        obtain ⟨rfl, rfl⟩ := h
        exact ⟨rfl, rfl, rfl, rfl, rfl⟩

/-- What is read for a user-defined start system with points in multiple precision, whatever the points and whatever follows
in the archive: it has no points, and the points remain unread. -/
theorem C122_user_mp (s : Sys) (pts : List (List Num)) (rest : List Fld) :
    ∃ t, feed rUser (wUser (.ofMp s pts) ++ rest) = some (t, wList (wList wNum) pts ++ rest) ∧ t.numPoints = 0 ∧
      ∀ i, t.point i = none := by
  refine ⟨⟨s, false, [], []⟩, ?_, rfl, fun _ => rfl⟩
  simp only [wUser, UserStart.ofMp, List.append_assoc]
  unfold rUser
  rw [cSys.step, cBool.step, (cList (cList cNum)).step]
  rfl

/-- With points in double precision the points are read, but an empty container remains before what follows. -/
theorem C122_user_dbl (s : Sys) (pts : List (List Num)) (rest : List Fld) :
    feed rUser (wUser (.ofDbl s pts) ++ rest) =
      some (.ofDbl s pts, Fld.tok (.nat 0) :: rest) := by
  simp only [wUser, UserStart.ofDbl, List.append_assoc]
  unfold rUser
  rw [cSys.step, cBool.step, (cList (cList cNum)).step]
  rfl

/-- A user-defined start system has the points given to its constructor, in either precision. -/
theorem C122_user_points (s : Sys) (pts : List (List Num)) (t : UserStart) (h : t = .ofDbl s pts ∨ t = .ofMp s pts) :
    t.numPoints = pts.length ∧ ∀ i, t.point i = pts[i]? := by
  rcases h with rfl | rfl <;> exact ⟨rfl, fun _ => rfl⟩

/-- Two points. -/
example : (UserStart.ofDbl (sysOf [] [] []) [[(1, 0)], [(2, 0)]]).numPoints = 2 :=
  (C122_user_points (sysOf [] [] []) _ _ (.inl rfl)).1

/-- A multihomogeneous start system with one function `x+y` of degree 1 in each of two groups has two partitions and two start points. -/
def Smh : MHomog :=
  ⟨sysOf [] [] [], [[1, 1]], [[0], [1]], [1], [], [], []⟩

example : Smh.numPoints = 2 := by decide

/-- C122 does not hold: multihomogeneous start systems lose their points. -/
theorem C122_refuted : ¬ C122_full := by
  rintro ⟨-, h, -⟩
  have hR : ∀ a, ¬ Reach (fun _ => .int 0) Smh.roots a := by
    intro a ha
    induction ha with
    | root h => revert h; simp [Smh, MHomog.roots, sysOf, Sys.roots]
    | kid _ h => simp [Obj.kids] at h
  obtain ⟨n₀, h⟩ := h (fun _ => .int 0) Smh trivial ⟨id, fun a b ha => absurd ha (hR a)⟩ (fun a ha => absurd ha (hR a))
  obtain ⟨st, φ, h1, -⟩ := h n₀ le_rfl
  have := (C122_mhom_empty _ _ _ _ _ h1).1
  revert this
  show (2 : ℕ) = 0 → False
  decide

/-- Nor does it for user-defined start systems. -/
theorem C122_user_refuted :
    ¬ Archivable wUser rUser UserStart.map (fun t => t.system.roots) UserStart.Made := by
  intro h
  have hR : ∀ a, ¬ Reach (fun _ => .int 0) (sysOf [] [] []).roots a := by
    intro a ha
    induction ha with
    | root h => revert h; simp [sysOf, Sys.roots]
    | kid _ h => simp [Obj.kids] at h
  obtain ⟨n₀, h⟩ := h (fun _ => .int 0) (.ofMp (sysOf [] [] []) [[(1, 0)]]) ⟨_, _, .inr rfl⟩
    ⟨id, fun a b ha => absurd ha (hR a)⟩ (fun a ha => absurd ha (hR a))
  obtain ⟨st, φ, h1, -⟩ := h (n₀ + 1) (by omega)
  have h2 : archive wUser rUser (fun _ => .int 0) (n₀ + 1) (.ofMp (sysOf [] [] []) [[(1, 0)]]) =
      some (⟨sysOf [] [] [], false, [], []⟩, []) := rfl
  rw [h2] at h1
  simp [UserStart.map, UserStart.ofMp] at h1

end B2.Infra.Arch
