import Verif.System.PrintSys
import Verif.System.PropsVars

/-!
# C188: what the printed system says

The English: the text names every variable of the system, and two systems with the same text have the same variables in the
same order, the same functions, parameters, constants and path variable.
-/

namespace B2.Sys

variable {α E X : Type}

/-! ### Specification -/

/-- The variables named in the text. -/
def namedVars (t : List (SLine α E X)) : List α := t.flatMap fun
  | .group _ vs | .homVars vs | .ungrouped vs => vs
  | _ => []

/-- **C188.** For all histories of calls that build up the variables and all systems with these variables: if it prints, the
text names all the variables; and a system with the same text has the same `Variables()`, functions, parameters, constants
and path variable. -/
def C188_full : Prop :=
  ∀ (α E X : Type) (h h' : List (Op α)) (s s' : Desc α E X) (t : List (SLine α E X)),
    s.vars = Vars.run h → s'.vars = Vars.run h' → Consistent (specRun h) → Consistent (specRun h') →
    s.print = some t →
    (∀ l, s.vars.variables.map Prod.fst = some l → l.Perm (namedVars t)) ∧
    (s'.print = some t → s.vars.variables.map Prod.fst = s'.vars.variables.map Prod.fst ∧ s.functions = s'.functions ∧
      s.parameters = s'.parameters ∧ s.constants = s'.constants ∧ s.path = s'.path)

/-! ### Reading the text -/

/-- A line that belongs to the derivatives, the straight line program, the patch or the values. -/
def SLine.late : SLine α E X → Bool
  | .differentiated | .jacobian .. | .space .. | .time .. | .slp _ | .notDifferentiated | .patch _ | .notPatched
  | .current _ => true
  | _ => false

theorem mem_of_mapM {β γ : Type} {f : β → Option γ} {l : List β} {r : List γ} (h : l.mapM f = some r) :
    ∀ y ∈ r, ∃ x ∈ l, f x = some y := by
  induction l generalizing r with
  | nil => simp at h; subst h; simp
  | cons a l ih =>
    rw [List.mapM_cons] at h
    simp only [Option.bind_eq_bind, Option.bind_eq_some_iff, Option.pure_def, Option.some.injEq] at h
    obtain ⟨b, hb, r', hr, rfl⟩ := h
    intro y hy
    rcases List.mem_cons.1 hy with rfl | hy
    · exact ⟨a, by simp, hb⟩
    · obtain ⟨x, hx, hf⟩ := ih hr y hy
      exact ⟨x, by simp [hx], hf⟩

theorem spaceLines_late {nf nv : ℕ} {space : List E} {r : List (SLine α E X)} (h : spaceLines nf nv space = some r) :
    ∀ y ∈ r, y.late = true := by
  simp only [spaceLines, Option.map_eq_some_iff] at h
  obtain ⟨rr, hr, rfl⟩ := h
  intro y hy
  obtain ⟨row, hrow, hy⟩ := List.mem_flatten.1 hy
  obtain ⟨j, -, hj⟩ := mem_of_mapM hr row hrow
  obtain ⟨i, -, hi⟩ := mem_of_mapM hj y hy
  simp only [Option.map_eq_some_iff] at hi
  obtain ⟨e, -, rfl⟩ := hi
  rfl

theorem timeLines_late {b : Bool} {nf : ℕ} {time : List E} {r : List (SLine α E X)} (h : timeLines b nf time = some r) :
    ∀ y ∈ r, y.late = true := by
  intro y hy
  cases b with
  | false =>
    simp [timeLines] at h
    subst h
    simp at hy
  | true =>
  rw [timeLines, if_pos rfl] at h
  obtain ⟨i, -, hi⟩ := mem_of_mapM h y hy
  simp only [Option.map_eq_some_iff] at hi
  obtain ⟨e, -, rfl⟩ := hi
  rfl

theorem diffLines_late {s : Desc α E X} {d : List (SLine α E X)} (h : s.diffLines = some d) : ∀ y ∈ d, y.late = true := by
  rw [Desc.diffLines] at h
  cases hd : s.diff with
  | none =>
    simp [hd] at h
    subst h
    simp [SLine.late]
  | some f =>
    simp only [hd, Option.bind_eq_bind, Option.bind_eq_some_iff, Option.some.injEq] at h
    obtain ⟨ds, hds, rfl⟩ := h
    have h1 : ∀ y ∈ ds, y.late = true := by
      cases f with
      | jacobian l =>
        simp only [Desc.derivLines, Option.some.injEq] at hds
        subst hds
        intro y hy
        obtain ⟨p, -, rfl⟩ := List.mem_map.1 hy
        rfl
      | derivatives space time =>
        simp only [Desc.derivLines, Option.bind_eq_bind, Option.bind_eq_some_iff, Option.some.injEq] at hds
        obtain ⟨a, ha, b, hb, rfl⟩ := hds
        intro y hy
        rcases List.mem_append.1 hy with hy | hy
        · exact spaceLines_late ha y hy
        · exact timeLines_late hb y hy
    intro y hy
    simp only [List.cons_append, List.mem_cons, List.mem_append, List.mem_map] at hy
    rcases hy with rfl | hy | ⟨x, -, rfl⟩
    · rfl
    · exact h1 y hy
    · rfl

/-- The part of the text before the derivatives. -/
def Desc.early (s : Desc α E X) : List (SLine α E X) :=
  .numGroups s.vars.groups.length :: groupLines 0 s.vars.groups ++
    [.numHomVars s.vars.numHomVars, .homVars s.vars.homVars,
      .numUngrouped s.vars.ungrouped.length, .ungrouped s.vars.ungrouped,
      .numFunctions s.functions.length] ++ s.functions.map (fun p => SLine.function p.1 p.2) ++
    section' .numParameters .parameter s.parameters ++ section' .numConstants .constant s.constants ++
    [pathLine s.path]

theorem print_early {s : Desc α E X} {t : List (SLine α E X)} (h : s.print = some t) :
    ∃ r, t = s.early ++ r ∧ ∀ y ∈ r, y.late = true := by
  simp only [Desc.print, Option.bind_eq_bind, Option.bind_eq_some_iff, Option.some.injEq] at h
  obtain ⟨d, hd, rfl⟩ := h
  refine ⟨_, List.append_assoc _ _ _, ?_⟩
  intro y hy
  rcases List.mem_append.1 hy with hy | hy
  · exact diffLines_late hd y hy
  · simp only [List.mem_cons, List.not_mem_nil, or_false] at hy
    rcases hy with rfl | rfl
    · cases s.patch <;> rfl
    · rfl

/-- Reading a kind of lines out of the text. -/
theorem read_late {β : Type} (f : SLine α E X → Option β) (hf : ∀ y, y.late = true → f y = none)
    {r : List (SLine α E X)} (hr : ∀ y ∈ r, y.late = true) : r.filterMap f = [] := by
  rw [List.filterMap_eq_nil_iff]
  exact fun y hy => hf y (hr y hy)

/-- The groups named in the text. -/
def readGroup : SLine α E X → Option (List α) | .group _ vs => some vs | _ => none
def readHom : SLine α E X → Option (List α) | .homVars vs => some vs | _ => none
def readUngrouped : SLine α E X → Option (List α) | .ungrouped vs => some vs | _ => none
def readFunction : SLine α E X → Option (String × E) | .function n e => some (n, e) | _ => none
def readParameter : SLine α E X → Option (String × E) | .parameter n e => some (n, e) | _ => none
def readConstant : SLine α E X → Option (String × E) | .constant n e => some (n, e) | _ => none
def readPath : SLine α E X → Option α | .path v => some v | _ => none

theorem groupLines_read (k : ℕ) (gs : List (List α)) :
    (groupLines (E := E) (X := X) k gs).filterMap readGroup = gs ∧
    (groupLines (E := E) (X := X) k gs).filterMap readHom = [] ∧
    (groupLines (E := E) (X := X) k gs).filterMap readUngrouped = [] ∧
    (groupLines (E := E) (X := X) k gs).filterMap readFunction = [] ∧
    (groupLines (E := E) (X := X) k gs).filterMap readParameter = [] ∧
    (groupLines (E := E) (X := X) k gs).filterMap readConstant = [] ∧
    (groupLines (E := E) (X := X) k gs).filterMap readPath = [] := by
  induction gs generalizing k with
  | nil => simp [groupLines]
  | cons g gs ih =>
    obtain ⟨a, b, c, d, e, f, g'⟩ := ih (k + 1)
    refine ⟨?_, b, c, d, e, f, g'⟩
    simp only [groupLines, List.filterMap_cons, readGroup]
    exact congrArg (g :: ·) a

theorem map_read_some {β : Type} (l : List (String × E)) (line : String → E → SLine α E X) (f : SLine α E X → Option β)
    (g : String × E → β) (h : ∀ n e, f (line n e) = some (g (n, e))) :
    (l.map fun p => line p.1 p.2).filterMap f = l.map g := by
  induction l with
  | nil => rfl
  | cons p l ih => simp [h, ih]

theorem map_read_none {β : Type} (l : List (String × E)) (line : String → E → SLine α E X) (f : SLine α E X → Option β)
    (h : ∀ n e, f (line n e) = none) : (l.map fun p => line p.1 p.2).filterMap f = [] := by
  induction l with
  | nil => rfl
  | cons p l ih => simp [h, ih]

theorem section_read_none {β : Type} (num : ℕ → SLine α E X) (line : String → E → SLine α E X) (l : List (String × E))
    (f : SLine α E X → Option β) (h0 : ∀ n, f (num n) = none) (h : ∀ n e, f (line n e) = none) :
    (section' num line l).filterMap f = [] := by
  rw [section']
  by_cases hl : l.length ≠ 0
  · rw [if_pos hl, List.filterMap_cons, h0, map_read_none l line f h]
  · rw [if_neg hl]; rfl

theorem section_read (num : ℕ → SLine α E X) (line : String → E → SLine α E X) (l : List (String × E))
    (f : SLine α E X → Option (String × E)) (h0 : ∀ n, f (num n) = none) (h : ∀ n e, f (line n e) = some (n, e)) :
    (section' num line l).filterMap f = l := by
  rw [section']
  by_cases hl : l.length ≠ 0
  · rw [if_pos hl, List.filterMap_cons, h0]
    have := map_read_some l line f id h
    simpa using this
  · rw [if_neg hl]
    have : l = [] := List.length_eq_zero_iff.1 (not_not.1 hl)
    simp [this]

/-- What is read out of the text: the groups, homogenizing variables, ungrouped variables, functions, parameters, constants and
path variable of the system. -/
theorem read_print {s : Desc α E X} {t : List (SLine α E X)} (h : s.print = some t) :
    t.filterMap readGroup = s.vars.groups ∧ t.filterMap readHom = [s.vars.homVars] ∧
    t.filterMap readUngrouped = [s.vars.ungrouped] ∧ t.filterMap readFunction = s.functions ∧
    t.filterMap readParameter = s.parameters ∧ t.filterMap readConstant = s.constants ∧
    t.filterMap readPath = s.path.toList := by
  obtain ⟨r, rfl, hr⟩ := print_early h
  obtain ⟨a, b, c, d, e, f, g⟩ := groupLines_read (E := E) (X := X) 0 s.vars.groups
  have r1 := read_late readGroup (by intro y hy; cases y <;> first | rfl | cases hy) hr
  have r2 := read_late readHom (by intro y hy; cases y <;> first | rfl | cases hy) hr
  have r3 := read_late readUngrouped (by intro y hy; cases y <;> first | rfl | cases hy) hr
  have r4 := read_late readFunction (by intro y hy; cases y <;> first | rfl | cases hy) hr
  have r5 := read_late readParameter (by intro y hy; cases y <;> first | rfl | cases hy) hr
  have r6 := read_late readConstant (by intro y hy; cases y <;> first | rfl | cases hy) hr
  have r7 := read_late readPath (by intro y hy; cases y <;> first | rfl | cases hy) hr
  have f4 := map_read_some s.functions (SLine.function (α := α) (X := X)) readFunction id (fun _ _ => rfl)
  rw [List.map_id] at f4
  refine ⟨?_, ?_, ?_, ?_, ?_, ?_, ?_⟩
  · simp only [Desc.early, List.filterMap_append, List.filterMap_cons, a, r1,
      map_read_none s.functions SLine.function readGroup (fun _ _ => rfl),
      section_read_none .numParameters .parameter s.parameters readGroup (fun _ => rfl) (fun _ _ => rfl),
      section_read_none .numConstants .constant s.constants readGroup (fun _ => rfl) (fun _ _ => rfl)]
    cases s.path <;> simp [readGroup, pathLine]
  · simp only [Desc.early, List.filterMap_append, List.filterMap_cons, b, r2,
      map_read_none s.functions SLine.function readHom (fun _ _ => rfl),
      section_read_none .numParameters .parameter s.parameters readHom (fun _ => rfl) (fun _ _ => rfl),
      section_read_none .numConstants .constant s.constants readHom (fun _ => rfl) (fun _ _ => rfl)]
    cases s.path <;> simp [readHom, pathLine]
  · simp only [Desc.early, List.filterMap_append, List.filterMap_cons, c, r3,
      map_read_none s.functions SLine.function readUngrouped (fun _ _ => rfl),
      section_read_none .numParameters .parameter s.parameters readUngrouped (fun _ => rfl) (fun _ _ => rfl),
      section_read_none .numConstants .constant s.constants readUngrouped (fun _ => rfl) (fun _ _ => rfl)]
    cases s.path <;> simp [readUngrouped, pathLine]
  · simp only [Desc.early, List.filterMap_append, List.filterMap_cons, d, r4, f4,
      section_read_none .numParameters .parameter s.parameters readFunction (fun _ => rfl) (fun _ _ => rfl),
      section_read_none .numConstants .constant s.constants readFunction (fun _ => rfl) (fun _ _ => rfl)]
    cases s.path <;> simp [readFunction, pathLine]
  · simp only [Desc.early, List.filterMap_append, List.filterMap_cons, e, r5,
      map_read_none s.functions SLine.function readParameter (fun _ _ => rfl),
      section_read .numParameters .parameter s.parameters readParameter (fun _ => rfl) (fun _ _ => rfl),
      section_read_none .numConstants .constant s.constants readParameter (fun _ => rfl) (fun _ _ => rfl)]
    cases s.path <;> simp [readParameter, pathLine]
  · simp only [Desc.early, List.filterMap_append, List.filterMap_cons, f, r6,
      map_read_none s.functions SLine.function readConstant (fun _ _ => rfl),
      section_read_none .numParameters .parameter s.parameters readConstant (fun _ => rfl) (fun _ _ => rfl),
      section_read .numConstants .constant s.constants readConstant (fun _ => rfl) (fun _ _ => rfl)]
    cases s.path <;> simp [readConstant, pathLine]
  · simp only [Desc.early, List.filterMap_append, List.filterMap_cons, g, r7,
      map_read_none s.functions SLine.function readPath (fun _ _ => rfl),
      section_read_none .numParameters .parameter s.parameters readPath (fun _ => rfl) (fun _ _ => rfl),
      section_read_none .numConstants .constant s.constants readPath (fun _ => rfl) (fun _ _ => rfl)]
    cases s.path <;> simp [readPath, pathLine]

theorem namedVars_perm (t : List (SLine α E X)) : (namedVars t).Perm
    ((t.filterMap readHom).flatten ++ ((t.filterMap readGroup).flatten ++ (t.filterMap readUngrouped).flatten)) := by
  induction t with
  | nil => simp [namedVars]
  | cons y t ih =>
    simp only [namedVars, List.flatMap_cons] at ih ⊢
    cases y with
    | group k vs =>
      simp only [List.filterMap_cons, readHom, readGroup, readUngrouped, List.flatten_cons] at ih ⊢
      refine (ih.append_left vs).trans ?_
      simp only [List.append_assoc]
      exact List.perm_append_comm_assoc _ _ _
    | homVars vs =>
      simp only [List.filterMap_cons, readHom, readGroup, readUngrouped, List.flatten_cons] at ih ⊢
      rw [List.append_assoc]
      exact ih.append_left vs
    | ungrouped vs =>
      simp only [List.filterMap_cons, readHom, readGroup, readUngrouped, List.flatten_cons] at ih ⊢
      refine (ih.append_left vs).trans ?_
      exact (List.perm_append_comm_assoc _ _ _).trans ((List.perm_append_comm_assoc _ _ _).append_left _)
    | _ => simpa only [List.filterMap_cons, readHom, readGroup, readUngrouped, List.nil_append] using ih

theorem blocks_perm (bs : List (Block α)) : (bs.flatMap Block.vars).Perm
    (hvs bs ++ ((affs bs).flatten ++ (ungs bs).flatMap (fun v => [v])) ++ (homs bs).flatten) := by
  have h1 : (bs.flatMap fun
      | .affine _ vs | .homog vs => vs
      | .ungrouped v => [v]).Perm ((affs bs).flatten ++ (ungs bs).flatMap (fun v => [v]) ++ (homs bs).flatten) := by
    induction bs with
    | nil => simp [affs, homs, ungs]
    | cons b bs ih =>
      simp only [List.flatMap_cons]
      cases b with
      | affine h vs =>
        simp only [affs, homs, ungs, List.flatten_cons, List.append_assoc] at ih ⊢
        exact ih.append_left vs
      | homog vs =>
        simp only [affs, homs, ungs, List.flatten_cons] at ih ⊢
        exact (ih.append_left vs).trans (List.perm_append_comm_assoc _ _ _)
      | ungrouped v =>
        simp only [affs, homs, ungs, List.flatMap_cons] at ih ⊢
        refine (ih.append_left [v]).trans ?_
        simp only [List.append_assoc]
        rw [← List.append_assoc, ← List.append_assoc _ [v]]
        exact List.perm_append_comm.append_right _
  rw [List.append_assoc]
  exact (vars_perm bs).trans (h1.append_left _)

/-! ### C188 -/

/-- A system with the same text has the same groups, homogenizing and ungrouped variables, functions, parameters, constants
and path variable. -/
theorem C188_same (s s' : Desc α E X) (t : List (SLine α E X)) (h : s.print = some t) (h' : s'.print = some t) :
    s.vars.groups = s'.vars.groups ∧ s.vars.homVars = s'.vars.homVars ∧ s.vars.ungrouped = s'.vars.ungrouped ∧
      s.functions = s'.functions ∧ s.parameters = s'.parameters ∧ s.constants = s'.constants ∧ s.path = s'.path := by
  obtain ⟨a1, a2, a3, a4, a5, a6, a7⟩ := read_print h
  obtain ⟨b1, b2, b3, b4, b5, b6, b7⟩ := read_print h'
  have h2 := a2.symm.trans b2
  have h3 := a3.symm.trans b3
  have h7 := a7.symm.trans b7
  simp only [List.cons.injEq, and_true] at h2 h3
  refine ⟨a1.symm.trans b1, h2, h3, a4.symm.trans b4, a5.symm.trans b5, a6.symm.trans b6, ?_⟩
  cases hs : s.path <;> cases hs' : s'.path <;> simp_all

theorem variables_eq (h : List (Op α)) (hc : Consistent (specRun h)) :
    (Vars.run h).variables.map Prod.fst = some ((specRun h).flatMap Block.vars) := ((C18_variables h).1 hc).1

/-- **C188, without homogeneous groups, and with the order of the blocks given.** If no homogeneous group was added, the text
names all the variables, each as often as it occurs; and a system with the same text, again without homogeneous groups, and
with the same sequence of kinds of blocks, has the same `Variables()`. Missing from `C188_full`: homogeneous groups (not
printed) and the order of groups among ungrouped variables (not printed). -/
theorem C188_partial (h h' : List (Op α)) (s s' : Desc α E X) (t : List (SLine α E X))
    (hv : s.vars = Vars.run h) (hv' : s'.vars = Vars.run h') (hc : Consistent (specRun h)) (hc' : Consistent (specRun h'))
    (hn : s.vars.homGroups = []) (hp : s.print = some t) :
    (∀ l, s.vars.variables.map Prod.fst = some l → l.Perm (namedVars t)) ∧
    (s'.print = some t → s'.vars.homGroups = [] → s.vars.order = s'.vars.order →
      s.vars.variables.map Prod.fst = s'.vars.variables.map Prod.fst) := by
  have hr := (rep_run h).toRep
  have hr' := (rep_run h').toRep
  constructor
  · intro l hl
    rw [hv, variables_eq h hc, Option.some.injEq] at hl
    subst hl
    obtain ⟨a1, a2, a3, -⟩ := read_print hp
    refine (blocks_perm _).trans ((namedVars_perm t).trans ?_).symm
    rw [a1, a2, a3, hv, hr.groups, hr.homVars, hr.ungrouped]
    have : homs (specRun h) = [] := by rw [← hr.homGroups, ← hv, hn]
    simp [this]
  · intro hp' hn' ho
    obtain ⟨b1, b2, b3, -⟩ := C188_same s s' t hp hp'
    have hrep : Rep (Vars.run h') (specRun h) := by
      rw [hv, hv'] at b1 b2 b3 ho
      rw [hv] at hn
      rw [hv'] at hn'
      exact ⟨b3.symm.trans hr.ungrouped, b1.symm.trans hr.groups, by rw [hn', ← hr.homGroups, hn],
        b2.symm.trans hr.homVars, ho.symm.trans hr.order⟩
    have e1 := hrep.ordering hc
    have e2 := hr'.ordering hc'
    rw [hv, hv', variables_eq h hc, variables_eq h' hc', ← e1, ← e2]

/-- If the variables come in affine groups only, the text determines `Variables()`. -/
theorem C188_affine (h h' : List (Op α)) (s s' : Desc α E X) (t : List (SLine α E X))
    (hv : s.vars = Vars.run h) (hv' : s'.vars = Vars.run h') (hc : Consistent (specRun h)) (hc' : Consistent (specRun h'))
    (hn : s.vars.homGroups = [] ∧ s.vars.ungrouped = []) (hn' : s'.vars.homGroups = [] ∧ s'.vars.ungrouped = [])
    (hp : s.print = some t) (hp' : s'.print = some t) :
    s.vars.variables.map Prod.fst = s'.vars.variables.map Prod.fst := by
  have key : ∀ bs : List (Block α), homs bs = [] → ungs bs = [] →
      kinds bs = List.replicate (affs bs).length Kind.affine := by
    intro bs
    induction bs with
    | nil => intros; rfl
    | cons b bs ih =>
      intro h1 h2
      cases b with
      | affine x vs => simp only [kinds, affs, List.length_cons, List.replicate_succ, ih h1 h2]
      | homog vs => simp [homs] at h1
      | ungrouped v => simp [ungs] at h2
  have hr := (rep_run h).toRep
  have hr' := (rep_run h').toRep
  refine (C188_partial h h' s s' t hv hv' hc hc' hn.1 hp).2 hp' hn'.1 ?_
  have hg := (C188_same s s' t hp hp').1
  rw [hv] at hn hg ⊢
  rw [hv'] at hn' hg ⊢
  rw [hr.order, hr'.order, key _ (hr.homGroups.symm.trans hn.1) (hr.ungrouped.symm.trans hn.2),
    key _ (hr'.homGroups.symm.trans hn'.1) (hr'.ungrouped.symm.trans hn'.2), ← hr.groups, ← hr'.groups, hg]

theorem mapM_range {β : Type} (n : ℕ) (f : ℕ → Option β) (g : ℕ → β) (h : ∀ i < n, f i = some (g i)) :
    (List.range n).mapM f = some ((List.range n).map g) := by
  induction n with
  | zero => rfl
  | succ n ih =>
    rw [List.range_succ, List.mapM_append, ih (fun i hi => h i (by omega))]
    simp [h n (by omega)]

/-- The derivatives are printed with the right labels: if place `ii + jj * nf` holds the derivative `D ii jj` of function `ii` by
variable `jj`, and (with a path variable) place `ii` of the others that by the path variable, the system prints, and the lines
on derivatives are exactly these. -/
theorem C188_derivatives (s : Desc α E X) (space time : List E) (D : ℕ → ℕ → E) (T : ℕ → E)
    (hd : s.diff = some (.derivatives space time))
    (hD : ∀ ii < s.functions.length, ∀ jj < s.vars.numVariables, space[ii + jj * s.functions.length]? = some (D ii jj))
    (hT : s.path.isSome = true → ∀ ii < s.functions.length, time[ii]? = some (T ii)) :
    ∃ t, s.print = some t ∧
      (∀ ii jj e, SLine.space ii jj e ∈ t ↔ ii < s.functions.length ∧ jj < s.vars.numVariables ∧ e = D ii jj) ∧
      (∀ ii e, SLine.time ii e ∈ t ↔ s.path.isSome = true ∧ ii < s.functions.length ∧ e = T ii) := by
  have h1 : spaceLines (α := α) (X := X) s.functions.length s.vars.numVariables space =
      some ((List.range s.vars.numVariables).map fun jj =>
        (List.range s.functions.length).map fun ii => SLine.space ii jj (D ii jj)).flatten := by
    rw [spaceLines, mapM_range _ _ (fun jj => (List.range s.functions.length).map fun ii => SLine.space ii jj (D ii jj))]
    · rfl
    · intro jj hj
      refine mapM_range _ _ _ ?_
      intro ii hi
      rw [hD ii hi jj hj]
      rfl
  have h2 : timeLines (α := α) (X := X) s.path.isSome s.functions.length time =
      some (if s.path.isSome then (List.range s.functions.length).map fun ii => SLine.time ii (T ii) else []) := by
    cases hp : s.path.isSome with
    | false => simp [timeLines]
    | true =>
      simp only [timeLines, if_true]
      refine mapM_range _ _ _ ?_
      intro ii hi
      rw [hT hp ii hi]
      rfl
  have hg : ∀ k (gs : List (List α)), (∀ ii jj e, SLine.space ii jj e ∉ groupLines (E := E) (X := X) k gs) ∧
      (∀ ii e, SLine.time ii e ∉ groupLines (E := E) (X := X) k gs) := by
    intro k gs
    induction gs generalizing k with
    | nil => simp [groupLines]
    | cons g gs ih => simp [groupLines, ih (k + 1)]
  have hsec : ∀ (l : List (String × E)) (y : SLine α E X), y.late = true →
      y ∉ section' .numParameters .parameter l ∧ y ∉ section' .numConstants .constant l := by
    intro l y hy
    constructor
    all_goals
      intro hm
      rw [section'] at hm
      by_cases hl : l.length ≠ 0
      · rw [if_pos hl] at hm
        simp only [List.mem_cons, List.mem_map] at hm
        rcases hm with rfl | ⟨p, -, rfl⟩ <;> cases hy
      · rw [if_neg hl] at hm
        simp at hm
  refine ⟨_, by simp only [Desc.print, Desc.diffLines, hd, Desc.derivLines, h1, h2, Option.bind_eq_bind, Option.bind_some]; rfl, ?_, ?_⟩
  · intro ii jj e
    have hs := hsec s.parameters (SLine.space ii jj e) rfl
    have hs' := hsec s.constants (SLine.space ii jj e) rfl
    have hgs := (hg 0 s.vars.groups).1 ii jj e
    have hpa : (pathLine s.path : SLine α E X) ≠ SLine.space ii jj e := by
      cases s.path <;> simp [pathLine]
    have hpt : (patchLine s.patch : SLine α E X) ≠ SLine.space ii jj e := by
      cases s.patch <;> simp [patchLine]
    have htl : SLine.space ii jj e ∉ (if s.path.isSome then (List.range s.functions.length).map
        fun ii => SLine.time ii (T ii) else [] : List (SLine α E X)) := by
      cases s.path.isSome <;> simp
    simp only [List.mem_append, List.mem_cons, hs.1, hs'.2, hgs, hpa.symm, hpt.symm, htl, List.mem_flatten, List.mem_map,
      List.mem_range, reduceCtorEq, and_false, exists_false, false_or, or_false, List.not_mem_nil]
    constructor
    · rintro ⟨l, ⟨j, hj, rfl⟩, hm⟩
      simp only [List.mem_map, List.mem_range, SLine.space.injEq] at hm
      obtain ⟨i, hi, rfl, rfl, rfl⟩ := hm
      exact ⟨hi, hj, rfl⟩
    · rintro ⟨hi, hj, rfl⟩
      exact ⟨_, ⟨jj, hj, rfl⟩, List.mem_map.2 ⟨ii, List.mem_range.2 hi, rfl⟩⟩
  · intro ii e
    have hs := hsec s.parameters (SLine.time ii e) rfl
    have hs' := hsec s.constants (SLine.time ii e) rfl
    have hgs := (hg 0 s.vars.groups).2 ii e
    have hpa : (pathLine s.path : SLine α E X) ≠ SLine.time ii e := by
      cases s.path <;> simp [pathLine]
    have hpt : (patchLine s.patch : SLine α E X) ≠ SLine.time ii e := by
      cases s.patch <;> simp [patchLine]
    have hsp : SLine.time ii e ∉ ((List.range s.vars.numVariables).map fun jj =>
        (List.range s.functions.length).map fun ii => (SLine.space ii jj (D ii jj) : SLine α E X)).flatten := by
      simp
    simp only [List.mem_append, List.mem_cons, hs.1, hs'.2, hgs, hpa.symm, hpt.symm, hsp, List.mem_map,
      reduceCtorEq, and_false, exists_false, false_or, or_false, List.not_mem_nil]
    cases s.path.isSome with
    | false => simp
    | true =>
      simp only [if_true, List.mem_map, List.mem_range, SLine.time.injEq, true_and]
      constructor
      · rintro ⟨i, hi, rfl, rfl⟩
        exact ⟨hi, rfl⟩
      · rintro ⟨hi, rfl⟩
        exact ⟨ii, hi, rfl, rfl⟩

theorem mem_groupLines (k i : ℕ) (gs : List (List α)) (vs : List α) :
    SLine.group i vs ∈ groupLines (E := E) (X := X) k gs ↔ k ≤ i ∧ gs[i - k]? = some vs := by
  induction gs generalizing k with
  | nil => simp [groupLines]
  | cons g gs ih =>
    simp only [groupLines, List.mem_cons, SLine.group.injEq, ih (k + 1)]
    constructor
    · rintro (⟨rfl, rfl⟩ | ⟨h1, h2⟩)
      · simp
      · refine ⟨by omega, ?_⟩
        rw [show i - k = (i - (k + 1)) + 1 by omega]
        simpa using h2
    · rintro ⟨h1, h2⟩
      by_cases hk : i = k
      · subst hk
        simp at h2
        exact Or.inl ⟨rfl, h2.symm⟩
      · right
        refine ⟨by omega, ?_⟩
        rw [show i - k = (i - (k + 1)) + 1 by omega] at h2
        simpa using h2

theorem groupLines_only (k : ℕ) (gs : List (List α)) (y : SLine α E X) (h : y ∈ groupLines k gs) :
    ∃ i vs, y = .group i vs := by
  induction gs generalizing k with
  | nil => simp [groupLines] at h
  | cons g gs ih =>
    simp only [groupLines, List.mem_cons] at h
    rcases h with rfl | h
    · exact ⟨_, _, rfl⟩
    · exact ih _ h

theorem mem_section (num : ℕ → SLine α E X) (line : String → E → SLine α E X) (l : List (String × E)) (y : SLine α E X) :
    y ∈ section' num line l ↔ l ≠ [] ∧ (y = num l.length ∨ ∃ p ∈ l, line p.1 p.2 = y) := by
  rw [section']
  cases l with
  | nil => simp
  | cons p l => simp [eq_comm (a := y) (b := line p.1 p.2)]

/-- The groups are numbered as they were added, and the counts in the text are right. -/
theorem C188_counts (s : Desc α E X) (t : List (SLine α E X)) (h : s.print = some t) :
    (∀ k vs, SLine.group k vs ∈ t ↔ s.vars.groups[k]? = some vs) ∧
    (∀ n, SLine.numGroups n ∈ t ↔ n = s.vars.groups.length) ∧
    (∀ n, SLine.numHomVars n ∈ t ↔ n = s.vars.homVars.length) ∧
    (∀ n, SLine.numUngrouped n ∈ t ↔ n = s.vars.ungrouped.length) ∧
    (∀ n, SLine.numFunctions n ∈ t ↔ n = s.functions.length) ∧
    (∀ n, SLine.numParameters n ∈ t ↔ n = s.parameters.length ∧ n ≠ 0) ∧
    (∀ n, SLine.numConstants n ∈ t ↔ n = s.constants.length ∧ n ≠ 0) := by
  obtain ⟨r, rfl, hr⟩ := print_early h
  have hgl : ∀ y : SLine α E X, (∀ i vs, y ≠ .group i vs) → y ∉ groupLines 0 s.vars.groups := by
    intro y hy hm
    obtain ⟨i, vs, rfl⟩ := groupLines_only _ _ _ hm
    exact hy i vs rfl
  have hrl : ∀ y : SLine α E X, y.late = false → y ∉ r := by
    intro y hy hm
    rw [hr y hm] at hy
    cases hy
  have hpath : ∀ y : SLine α E X, (∀ v, y ≠ .path v) → y ≠ .noPath → y ≠ pathLine s.path := by
    intro y h1 h2
    cases s.path with
    | none => exact h2
    | some v => exact h1 v
  have hlen : ∀ l : List (String × E), ∀ n : ℕ, (l ≠ [] ∧ n = l.length) ↔ (n = l.length ∧ n ≠ 0) := by
    intro l n
    constructor
    · rintro ⟨h1, rfl⟩
      exact ⟨rfl, fun e => h1 (List.length_eq_zero_iff.1 e)⟩
    · rintro ⟨rfl, h1⟩
      exact ⟨fun e => h1 (by simp [e]), rfl⟩
  refine ⟨?_, ?_, ?_, ?_, ?_, ?_, ?_⟩
  · intro k vs
    have h1 := hrl (.group k vs) rfl
    have h2 := hpath (.group k vs) (by simp) (by simp)
    have h3 := mem_groupLines (E := E) (X := X) 0 k s.vars.groups vs
    simp only [Nat.zero_le, true_and, Nat.sub_zero] at h3
    simp [Desc.early, h1, h2, h3, mem_section]
  · intro n
    have h1 := hrl (.numGroups n) rfl
    have h2 := hpath (.numGroups n) (by simp) (by simp)
    have h3 := hgl (.numGroups n) (by simp)
    simp [Desc.early, h1, h2, h3, mem_section]
  · intro n
    have h1 := hrl (.numHomVars n) rfl
    have h2 := hpath (.numHomVars n) (by simp) (by simp)
    have h3 := hgl (.numHomVars n) (by simp)
    simp [Desc.early, h1, h2, h3, mem_section, Vars.numHomVars]
  · intro n
    have h1 := hrl (.numUngrouped n) rfl
    have h2 := hpath (.numUngrouped n) (by simp) (by simp)
    have h3 := hgl (.numUngrouped n) (by simp)
    simp [Desc.early, h1, h2, h3, mem_section]
  · intro n
    have h1 := hrl (.numFunctions n) rfl
    have h2 := hpath (.numFunctions n) (by simp) (by simp)
    have h3 := hgl (.numFunctions n) (by simp)
    simp [Desc.early, h1, h2, h3, mem_section]
  · intro n
    have h1 := hrl (.numParameters n) rfl
    have h2 := hpath (.numParameters n) (by simp) (by simp)
    have h3 := hgl (.numParameters n) (by simp)
    rw [← hlen]
    simp [Desc.early, h1, h2, h3, mem_section]
  · intro n
    have h1 := hrl (.numConstants n) rfl
    have h2 := hpath (.numConstants n) (by simp) (by simp)
    have h3 := hgl (.numConstants n) (by simp)
    rw [← hlen]
    simp [Desc.early, h1, h2, h3, mem_section]

/-! ### Refutations -/

/-- A system with these variables and nothing else. -/
def bare (h : List (Op ℕ)) : Desc ℕ Unit Unit := ⟨Vars.run h, [], [], [], none, none, none, none, ()⟩

/-- The variables of a homogeneous group are not in the text. -/
theorem C188_hom_missing : ∃ t, (bare [.addHomGroup [0, 1]]).print = some t ∧ namedVars t = [] ∧
    (Vars.run [.addHomGroup [0, 1]]).variables.map Prod.fst = some [0, 1] := ⟨_, rfl, rfl, rfl⟩

/-- A group and then an ungrouped variable, or the other way round: the texts are equal, the orders of the variables are
not. -/
theorem C188_order_lost : (bare [.addGroup [0], .addUngrouped 1]).print = (bare [.addUngrouped 1, .addGroup [0]]).print ∧
    (Vars.run [.addGroup [0], .addUngrouped 1]).variables.map Prod.fst = some [0, 1] ∧
    (Vars.run [.addUngrouped 1, .addGroup [0]]).variables.map Prod.fst = some [1, 0] := ⟨rfl, rfl, rfl⟩

theorem C188_refuted : ¬ C188_full := by
  intro h
  obtain ⟨t, h1, h2, h3⟩ := C188_hom_missing
  have hc : Consistent (specRun [Op.addHomGroup [0, 1]]) := Or.inl (by intro a b hm; simp [specRun, specStep] at hm)
  have := (h ℕ Unit Unit [.addHomGroup [0, 1]] [.addHomGroup [0, 1]] (bare [.addHomGroup [0, 1]])
    (bare [.addHomGroup [0, 1]]) t rfl rfl hc hc h1).1 _ h3
  rw [h2] at this
  simpa using this.length_eq

/-- A case meeting the hypotheses of `C188_partial`: two groups, homogenized, and an ungrouped variable. -/
example : ∃ t, (bare [.addGroup [0, 1], .addUngrouped 2, .addGroup [3], .homogenize (fun k => 10 + k)]).print = some t ∧
    namedVars t = [0, 1, 3, 10, 11, 2] ∧
    (Vars.run [.addGroup [0, 1], .addUngrouped 2, .addGroup [3], .homogenize (fun k => 10 + k)]).variables.map Prod.fst =
      some [10, 0, 1, 2, 11, 3] ∧
    (Vars.run [.addGroup [0, 1], .addUngrouped 2, .addGroup [3], .homogenize (fun k => 10 + k)]).homGroups = [] :=
  ⟨_, rfl, rfl, rfl, rfl⟩

/-- A case meeting the hypotheses of `C188_derivatives`: two functions of one variable and a path variable. -/
example : ∃ s : Desc ℕ ℕ Unit, s.vars = Vars.run [.addGroup [0]] ∧ s.diff = some (.derivatives [5, 6] [7, 8]) ∧
    s.path = some 9 ∧ s.functions.length = 2 ∧ (∃ t, s.print = some t ∧ SLine.space 1 0 6 ∈ t ∧ SLine.time 1 8 ∈ t) := by
  refine ⟨⟨Vars.run [.addGroup [0]], [("f", 1), ("g", 2)], [], [], some 9, some (.derivatives [5, 6] [7, 8]), none, none, ()⟩,
    rfl, rfl, rfl, rfl, ?_⟩
  obtain ⟨t, h1, h2, h3⟩ := C188_derivatives (α := ℕ) (X := Unit) ⟨Vars.run [.addGroup [0]], [("f", 1), ("g", 2)], [], [],
    some 9, some (.derivatives [5, 6] [7, 8]), none, none, ()⟩ [5, 6] [7, 8] (fun ii _ => 5 + ii) (fun ii => 7 + ii) rfl
    (by
      intro ii hi jj hj
      have hi' : ii < 2 := hi
      have hj' : jj < 1 := hj
      have : jj = 0 := by omega
      subst this
      have : ii = 0 ∨ ii = 1 := by omega
      rcases this with rfl | rfl <;> rfl)
    (by
      intro _ ii hi
      have hi' : ii < 2 := hi
      have : ii = 0 ∨ ii = 1 := by omega
      rcases this with rfl | rfl <;> rfl)
  exact ⟨t, h1, (h2 1 0 6).2 ⟨by decide, by decide, rfl⟩, (h3 1 8).2 ⟨rfl, by decide, rfl⟩⟩

end B2.Sys
