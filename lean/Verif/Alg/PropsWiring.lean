import Verif.Alg.Wiring
import Mathlib.Tactic

/-!
# Properties C162, C163: which systems a solve uses; copies of trackers
-/

namespace B2.Alg.Wire

/-! ### C162 -/

/-- Solver `z` is set up for the systems its getters return: its tracker tracks its homotopy, its endgame uses its
tracker, and it tracks as many paths as its start system has start points. -/
def Wired (e : Env) (h : Heap) (z : ℕ) : Prop :=
  ∃ s, h.solvers z = some s ∧ getSystem h (.member z) = some s.homotopy ∧ s.egTracker = .member z ∧
    s.numStart = e.count s.start

/-- Calls that replace the start system, homotopy, tracker or endgame of solver `z`, or the system its tracker
tracks. -/
def Touches (z : ℕ) : Op → Prop
  | .assignTracker d _ => d = .member z
  | .setSystem i _ => i = .member z
  | .construct z' _ _ _ => z' = z
  | .setTracker z' _ => z' = z
  | .setEndgame z' _ => z' = z
  | .copySolver z' _ => z' = z
  | .setStart z' _ => z' = z
  | .setHomotopy z' _ => z' = z
  | _ => False

/-- Every solver is set up for the systems its getters return, after any program that made it. -/
def C162_full : Prop :=
  ∀ e ops h z, runOps e ops Heap.empty = some h → (h.solvers z).isSome → Wired e h z

/-- A solver with these systems, set up for them. -/
def SetFor (e : Env) (h : Heap) (z k hm : ℕ) : Prop :=
  ∃ s, h.solvers z = some s ∧ s.start = k ∧ s.homotopy = hm ∧ getSystem h (.member z) = some hm ∧
    s.egTracker = .member z ∧ s.numStart = e.count k

theorem setPredictor_spec {e : Env} {i : TId} {m : ℕ} {h h' : Heap} (hr : setPredictor e i m h = some h') :
    ∃ t, h.trackers i = some t ∧ h'.solvers = h.solvers ∧ h'.next = h.next ∧
      h'.trackers = Function.update h.trackers i (some { t with order := e.order m }) ∧
      h'.cells = Function.update h.cells t.cell { h.cells t.cell with method := m } := by
  unfold setPredictor at hr
  rcases ht : h.trackers i with _ | t
  · rw [ht] at hr; cases hr
  rw [ht, Option.map_some, Option.some.injEq] at hr
  subst hr
  exact ⟨t, rfl, rfl, rfl, rfl, rfl⟩

theorem setSystem_spec {e : Env} {i : TId} {m : ℕ} {h h' : Heap} (hr : setSystem e i m h = some h') :
    ∃ t, h.trackers i = some t ∧ h'.solvers = h.solvers ∧ h'.next = h.next ∧
      h'.trackers = Function.update h.trackers i (some { t with sys := m }) ∧
      h'.cells = Function.update h.cells t.cell { h.cells t.cell with dims := e.dims m } := by
  unfold setSystem at hr
  rcases ht : h.trackers i with _ | t
  · rw [ht] at hr; cases hr
  rw [ht, Option.map_some, Option.some.injEq] at hr
  subst hr
  exact ⟨t, rfl, rfl, rfl, rfl, rfl⟩

theorem setup_spec {e : Env} {i : TId} {m n : ℕ} {h h' : Heap} (hr : setupTracker e i m n h = some h') :
    ∃ t, h.trackers i = some t ∧ h'.solvers = h.solvers ∧ h'.next = h.next ∧
      h'.trackers = Function.update h.trackers i (some { t with order := e.order m, newton := n }) ∧
      h'.cells = Function.update h.cells t.cell { h.cells t.cell with method := m, settings := n } := by
  unfold setupTracker at hr
  rcases h1 : setPredictor e i m h with _ | h1'
  · rw [h1] at hr; cases hr
  obtain ⟨t, a1, a2, a3, a4, a5⟩ := setPredictor_spec h1
  rw [h1, Option.bind_some, a4, Function.update_self, Option.map_some, Option.some.injEq] at hr
  subst hr
  refine ⟨t, a1, a2, a3, ?_, ?_⟩
  · show Function.update h1'.trackers i _ = _
    rw [a4, Function.update_idem]
  · show Function.update h1'.cells t.cell _ = _
    rw [a5, Function.update_idem, Function.update_self]

theorem defaultSystem_spec {e : Env} {z : ℕ} {h h' : Heap} (hr : defaultSystemSetup e z h = some h') :
    ∃ s, h.solvers z = some s ∧ h'.next = h.next ∧ h'.trackers = h.trackers ∧ h'.cells = h.cells ∧
      h'.solvers = Function.update h.solvers z (some { s with numStart := e.count s.start }) := by
  unfold defaultSystemSetup at hr
  rcases hs : h.solvers z with _ | s
  · rw [hs] at hr; cases hr
  rw [hs, Option.map_some, Option.some.injEq] at hr
  subst hr
  exact ⟨s, rfl, rfl, rfl, rfl, rfl⟩

theorem defaultTracker_spec {e : Env} {z : ℕ} {h h' : Heap} (hr : defaultTrackerSetup e z h = some h') :
    ∃ s t, h.solvers z = some s ∧ h.trackers (.member z) = some t ∧ h'.solvers = h.solvers ∧ h'.next = h.next ∧
      h'.trackers = Function.update h.trackers (.member z)
        (some { t with sys := s.homotopy, order := e.order e.dflt, newton := e.newton }) ∧
      h'.cells = Function.update h.cells t.cell ⟨e.dflt, e.dims s.homotopy, e.newton⟩ := by
  unfold defaultTrackerSetup at hr
  rcases hs : h.solvers z with _ | s
  · rw [hs] at hr; cases hr
  rw [hs, Option.bind_some] at hr
  rcases h1 : setSystem e (.member z) s.homotopy h with _ | h1'
  · rw [h1] at hr; cases hr
  rw [h1, Option.bind_some] at hr
  obtain ⟨t, a1, a2, a3, a4, a5⟩ := setSystem_spec h1
  obtain ⟨t', b1, b2, b3, b4, b5⟩ := setup_spec hr
  rw [a4, Function.update_self, Option.some.injEq] at b1
  subst b1
  refine ⟨s, t, rfl, a1, by rw [b2, a2], by rw [b3, a3], ?_, ?_⟩
  · rw [b4, a4, Function.update_idem]
  · rw [b5, a5, Function.update_idem, Function.update_self]

theorem defaultSetup_spec {e : Env} {z : ℕ} {h h' : Heap} (hr : defaultSetup e z h = some h') :
    ∃ s t, h.solvers z = some s ∧ h.trackers (.member z) = some t ∧ h'.next = h.next ∧
      h'.solvers = Function.update h.solvers z (some { s with numStart := e.count s.start }) ∧
      h'.trackers = Function.update h.trackers (.member z)
        (some { t with sys := s.homotopy, order := e.order e.dflt, newton := e.newton }) ∧
      h'.cells = Function.update h.cells t.cell ⟨e.dflt, e.dims s.homotopy, e.newton⟩ := by
  unfold defaultSetup at hr
  rcases h1 : defaultSystemSetup e z h with _ | h1'
  · rw [h1] at hr; cases hr
  rw [h1, Option.bind_some] at hr
  obtain ⟨s, a1, a2, a3, a4, a5⟩ := defaultSystem_spec h1
  obtain ⟨s', t, b1, b2, b3, b4, b5, b6⟩ := defaultTracker_spec hr
  rw [a5, Function.update_self, Option.some.injEq] at b1
  subst b1
  rw [a3] at b2 b5
  rw [a4] at b6
  exact ⟨s, t, a1, b2, by rw [b4, a2], by rw [b3, a5], b5, b6⟩

theorem construct_spec {e : Env} {z t k hm : ℕ} {h h' : Heap} (hr : construct e z t k hm h = some h') :
    e.valid t = true ∧ h'.next = h.next + 1 ∧
      h'.solvers = Function.update h.solvers z (some ⟨t, k, hm, e.count k, .member z⟩) ∧
      h'.trackers = Function.update h.trackers (.member z) (some ⟨hm, h.next, e.order e.dflt, e.newton⟩) ∧
      h'.cells = Function.update h.cells h.next ⟨e.dflt, e.dims hm, e.newton⟩ := by
  unfold construct at hr
  by_cases hv : e.valid t = true
  swap
  · rw [if_neg hv] at hr; cases hr
  rw [if_pos hv] at hr
  obtain ⟨s, tr, a1, a2, a3, a4, a5, a6⟩ := defaultSetup_spec hr
  have hs : (Function.update h.solvers z (some ⟨t, k, hm, 0, .member z⟩)) z = some s := a1
  rw [Function.update_self, Option.some.injEq] at hs
  subst hs
  have ht : (Function.update h.trackers (.member z) (some ⟨t, h.next, e.order e.dflt, e.newton⟩)) (.member z) = some tr := a2
  rw [Function.update_self, Option.some.injEq] at ht
  subst ht
  refine ⟨hv, a3, ?_, ?_, ?_⟩
  · rw [a4]
    show Function.update (Function.update h.solvers z _) z _ = _
    rw [Function.update_idem]
  · rw [a5]
    show Function.update (Function.update h.trackers _ _) _ _ = _
    rw [Function.update_idem]
  · rw [a6]
    show Function.update (Function.update h.cells _ _) _ _ = _
    rw [Function.update_idem]

theorem set_mono {e : Env} {h h' : Heap} {z k hm : ℕ} (hs : SetFor e h z k hm)
    (h1 : ∀ s, h.solvers z = some s → ∃ s', h'.solvers z = some s' ∧ s'.start = s.start ∧ s'.homotopy = s.homotopy ∧
      s'.egTracker = s.egTracker ∧ (s'.numStart = s.numStart ∨ s'.numStart = e.count s'.start))
    (h2 : getSystem h' (.member z) = getSystem h (.member z) ∨ getSystem h' (.member z) = some hm) : SetFor e h' z k hm := by
  obtain ⟨s, a1, a2, a3, a4, a5, a6⟩ := hs
  obtain ⟨s', b1, b2, b3, b4, b5⟩ := h1 s a1
  refine ⟨s', b1, by rw [b2, a2], by rw [b3, a3], ?_, by rw [b4, a5], ?_⟩
  · rcases h2 with h2 | h2
    · rw [h2, a4]
    · exact h2
  · rcases b5 with b5 | b5
    · rw [b5, a6]
    · rw [b5, b2, a2]

theorem run_set {e : Env} {o : Op} {h h' : Heap} {z k hm : ℕ} (hs : SetFor e h z k hm) (hr : o.run e h = some h')
    (ho : ¬ Touches z o) : SetFor e h' z k hm := by
  cases o with
  | newTracker n s =>
    simp only [Op.run, Option.some.injEq] at hr
    subst hr
    exact set_mono hs (fun s h => ⟨s, h, rfl, rfl, rfl, Or.inl rfl⟩) (Or.inl (by
      simp [getSystem, newTracker, Heap.setTr, Heap.setCell, Function.update]))
  | assignTracker d s =>
    simp only [Op.run, assignTracker] at hr
    rcases ht : h.trackers s with _ | t
    · rw [ht] at hr; cases hr
    rw [ht, Option.map_some, Option.some.injEq] at hr
    subst hr
    refine set_mono hs (fun s h => ⟨s, h, rfl, rfl, rfl, Or.inl rfl⟩) (Or.inl ?_)
    show Option.map _ (Function.update h.trackers d _ (.member z)) = _
    rw [Function.update_of_ne (fun hc => ho hc.symm)]
    rfl
  | setPredictor i m =>
    obtain ⟨t, a1, a2, a3, a4, a5⟩ := setPredictor_spec (show setPredictor e i m h = some h' from hr)
    refine set_mono hs (fun s h => ⟨s, by rw [a2, h], rfl, rfl, rfl, Or.inl rfl⟩) (Or.inl ?_)
    unfold getSystem
    rw [a4]
    by_cases hi : TId.member z = i
    · subst hi
      rw [Function.update_self, a1]
      rfl
    · rw [Function.update_of_ne hi]
  | setSystem i m =>
    obtain ⟨t, a1, a2, a3, a4, a5⟩ := setSystem_spec (show setSystem e i m h = some h' from hr)
    refine set_mono hs (fun s h => ⟨s, by rw [a2, h], rfl, rfl, rfl, Or.inl rfl⟩) (Or.inl ?_)
    unfold getSystem
    rw [a4, Function.update_of_ne (fun hc => ho hc.symm)]
  | setupTracker i m n =>
    obtain ⟨t, a1, a2, a3, a4, a5⟩ := setup_spec (show setupTracker e i m n h = some h' from hr)
    refine set_mono hs (fun s h => ⟨s, by rw [a2, h], rfl, rfl, rfl, Or.inl rfl⟩) (Or.inl ?_)
    unfold getSystem
    rw [a4]
    by_cases hi : TId.member z = i
    · subst hi
      rw [Function.update_self, a1]
      rfl
    · rw [Function.update_of_ne hi]
  | construct z' t' k' hm' =>
    obtain ⟨a1, a2, a3, a4, a5⟩ := construct_spec (show construct e z' t' k' hm' h = some h' from hr)
    have hz : z ≠ z' := fun hc => ho hc.symm
    refine set_mono hs (fun s h => ⟨s, by rw [a3, Function.update_of_ne hz, h], rfl, rfl, rfl, Or.inl rfl⟩) (Or.inl ?_)
    unfold getSystem
    rw [a4, Function.update_of_ne (fun hc => hz (TId.member.inj hc))]
  | defaultSetup z' =>
    obtain ⟨s, t, a1, a2, a3, a4, a5, a6⟩ := defaultSetup_spec (show defaultSetup e z' h = some h' from hr)
    by_cases hz : z = z'
    · subst hz
      refine set_mono hs (fun s' hs' => ⟨{ s' with numStart := e.count s'.start }, ?_, rfl, rfl, rfl, Or.inr rfl⟩)
        (Or.inr ?_)
      · rw [a4, Function.update_self]
        rw [a1, Option.some.injEq] at hs'
        rw [hs']
      · obtain ⟨s', b1, -, b3, -⟩ := hs
        rw [a1, Option.some.injEq] at b1
        subst b1
        unfold getSystem
        rw [a5, Function.update_self, ← b3]
        rfl
    · refine set_mono hs (fun s h => ⟨s, by rw [a4, Function.update_of_ne hz, h], rfl, rfl, rfl, Or.inl rfl⟩) (Or.inl ?_)
      unfold getSystem
      rw [a5, Function.update_of_ne (fun hc => hz (TId.member.inj hc))]
  | setTracker z' src =>
    have hz : z ≠ z' := fun hc => ho hc.symm
    simp only [Op.run, setTracker, assignTracker] at hr
    rcases ht : h.trackers src with _ | t
    · rw [ht] at hr; cases hr
    rw [ht, Option.map_some, Option.bind_some] at hr
    rcases hz' : (h.setTr (.member z') t).solvers z' with _ | s'
    · rw [hz'] at hr; cases hr
    rw [hz', Option.map_some, Option.some.injEq] at hr
    subst hr
    refine set_mono hs (fun s h => ⟨s, ?_, rfl, rfl, rfl, Or.inl rfl⟩) (Or.inl ?_)
    · show Function.update _ z' _ z = _
      rw [Function.update_of_ne hz]
      exact h
    · show Option.map _ (Function.update h.trackers (.member z') _ (.member z)) = _
      rw [Function.update_of_ne (fun hc => hz (TId.member.inj hc))]
      rfl
  | setEndgame z' i =>
    have hz : z ≠ z' := fun hc => ho hc.symm
    simp only [Op.run, setEndgame] at hr
    rcases hz' : h.solvers z' with _ | s'
    · rw [hz'] at hr; cases hr
    rw [hz', Option.map_some, Option.some.injEq] at hr
    subst hr
    refine set_mono hs (fun s h => ⟨s, ?_, rfl, rfl, rfl, Or.inl rfl⟩) (Or.inl rfl)
    show Function.update _ z' _ z = _
    rw [Function.update_of_ne hz]
    exact h
  | copySolver z' y =>
    have hz : z ≠ z' := fun hc => ho hc.symm
    simp only [Op.run, copySolver, assignTracker] at hr
    rcases ht : h.trackers (.member y) with _ | t
    · rw [ht] at hr; cases hr
    rw [ht, Option.map_some, Option.bind_some] at hr
    rcases hz' : (h.setTr (.member z') t).solvers y with _ | s'
    · rw [hz'] at hr; cases hr
    rw [hz', Option.map_some, Option.some.injEq] at hr
    subst hr
    refine set_mono hs (fun s h => ⟨s, ?_, rfl, rfl, rfl, Or.inl rfl⟩) (Or.inl ?_)
    · show Function.update _ z' _ z = _
      rw [Function.update_of_ne hz]
      exact h
    · show Option.map _ (Function.update h.trackers (.member z') _ (.member z)) = _
      rw [Function.update_of_ne (fun hc => hz (TId.member.inj hc))]
      rfl
  | setTarget z' i =>
    simp only [Op.run, setTarget] at hr
    rcases hz' : h.solvers z' with _ | s'
    · rw [hz'] at hr; cases hr
    rw [hz', Option.map_some, Option.some.injEq] at hr
    subst hr
    by_cases hz : z = z'
    · subst hz
      refine set_mono hs (fun s hs' => ⟨{ s with target := i }, ?_, rfl, rfl, rfl, Or.inl rfl⟩) (Or.inl rfl)
      rw [hz', Option.some.injEq] at hs'
      subst hs'
      exact Function.update_self ..
    · refine set_mono hs (fun s h => ⟨s, ?_, rfl, rfl, rfl, Or.inl rfl⟩) (Or.inl rfl)
      show Function.update _ z' _ z = _
      rw [Function.update_of_ne hz]
      exact h
  | setStart z' i =>
    have hz : z ≠ z' := fun hc => ho hc.symm
    simp only [Op.run, setStart] at hr
    rcases hz' : h.solvers z' with _ | s'
    · rw [hz'] at hr; cases hr
    rw [hz', Option.map_some, Option.some.injEq] at hr
    subst hr
    refine set_mono hs (fun s h => ⟨s, ?_, rfl, rfl, rfl, Or.inl rfl⟩) (Or.inl rfl)
    show Function.update _ z' _ z = _
    rw [Function.update_of_ne hz]
    exact h
  | setHomotopy z' i =>
    have hz : z ≠ z' := fun hc => ho hc.symm
    simp only [Op.run, setHomotopy] at hr
    rcases hz' : h.solvers z' with _ | s'
    · rw [hz'] at hr; cases hr
    rw [hz', Option.map_some, Option.some.injEq] at hr
    subst hr
    refine set_mono hs (fun s h => ⟨s, ?_, rfl, rfl, rfl, Or.inl rfl⟩) (Or.inl rfl)
    show Function.update _ z' _ z = _
    rw [Function.update_of_ne hz]
    exact h

theorem runOps_append (e : Env) : ∀ a b h, runOps e (a ++ b) h = (runOps e a h).bind (runOps e b)
  | [], b, h => rfl
  | o :: a, b, h => by
    rw [List.cons_append, runOps, runOps]
    rcases o.run e h with _ | h1
    · rfl
    · exact runOps_append e a b h1

theorem runOps_set {e : Env} {z k hm : ℕ} : ∀ (ops : List Op) {h h' : Heap}, SetFor e h z k hm → runOps e ops h = some h' →
    (∀ o ∈ ops, ¬ Touches z o) → SetFor e h' z k hm
  | [], h, h', hs, hr, _ => by
    rw [runOps, Option.some.injEq] at hr
    rwa [← hr]
  | o :: ops, h, h', hs, hr, ho => by
    rw [runOps] at hr
    rcases h1 : o.run e h with _ | h1'
    · rw [h1] at hr; cases hr
    rw [h1, Option.bind_some] at hr
    exact runOps_set ops (run_set hs h1 (ho o (by simp))) hr fun o ho' => ho o (by simp [ho'])

/-- **C162.** A solver made on a target, a start system and a homotopy is set up for these, whatever was done before
and whatever is done later with other objects, with its own settings and with its tracker, as long as its systems,
tracker and endgame are not replaced. -/
theorem C162_partial (e : Env) (pre post : List Op) (z t k hm : ℕ) (h : Heap)
    (hr : runOps e (pre ++ .construct z t k hm :: post) Heap.empty = some h) (hp : ∀ o ∈ post, ¬ Touches z o) :
    Wired e h z ∧ ∃ s, h.solvers z = some s ∧ s.start = k ∧ s.homotopy = hm := by
  rw [runOps_append] at hr
  rcases h1 : runOps e pre Heap.empty with _ | h1'
  · rw [h1] at hr; cases hr
  rw [h1, Option.bind_some, runOps] at hr
  rcases h2 : Op.run e (.construct z t k hm) h1' with _ | h2'
  · rw [h2] at hr; cases hr
  rw [h2, Option.bind_some] at hr
  obtain ⟨-, -, a3, a4, -⟩ := construct_spec (show construct e z t k hm h1' = some h2' from h2)
  have hs : SetFor e h2' z k hm := by
    refine ⟨_, by rw [a3, Function.update_self], rfl, rfl, ?_, rfl, rfl⟩
    unfold getSystem
    rw [a4, Function.update_self]
    rfl
  obtain ⟨s, b1, b2, b3, b4, b5, b6⟩ := runOps_set post hs hr hp
  exact ⟨⟨s, b1, by rw [b4, b3], b5, by rw [b6, b2]⟩, s, b1, b2, b3⟩

/-- **C162 (after the setters).** `DefaultSetup` called after systems were replaced sets the solver up for the new
ones, unless its endgame refers to another tracker. -/
theorem C162_again (e : Env) (z : ℕ) (h h' : Heap) (s : Solver) (hs : h.solvers z = some s)
    (he : s.egTracker = .member z) (hr : defaultSetup e z h = some h') :
    Wired e h' z ∧ ∃ s', h'.solvers z = some s' ∧ s'.start = s.start ∧ s'.homotopy = s.homotopy := by
  obtain ⟨s', t, a1, a2, a3, a4, a5, a6⟩ := defaultSetup_spec hr
  rw [hs, Option.some.injEq] at a1
  subst a1
  have h1 : h'.solvers z = some { s with numStart := e.count s.start } := by rw [a4, Function.update_self]
  refine ⟨⟨_, h1, ?_, he, rfl⟩, _, h1, rfl, rfl⟩
  unfold getSystem
  rw [a5, Function.update_self]
  rfl

/-- **C162 (stale homotopy).** After `Homotopy(i)` on a solver that was set up, `Homotopy()` returns the new
homotopy, while the tracker still tracks the old one. The same for the number of paths after `StartSystem(i)`. -/
theorem C162_stale (e : Env) (h : Heap) (z i : ℕ) (s : Solver) (hs : h.solvers z = some s) (hw : Wired e h z) :
    (∃ h', setHomotopy z i h = some h' ∧ (h'.solvers z).map Solver.homotopy = some i ∧
      getSystem h' (.member z) = some s.homotopy) ∧
    ∃ h', setStart z i h = some h' ∧ (h'.solvers z).map Solver.start = some i ∧
      (h'.solvers z).map Solver.numStart = some (e.count s.start) := by
  obtain ⟨s', a1, a2, a3, a4⟩ := hw
  rw [hs, Option.some.injEq] at a1
  subst a1
  refine ⟨⟨h.setSolver z { s with homotopy := i }, by rw [setHomotopy, hs, Option.map_some],
    by simp [Heap.setSolver], a2⟩, h.setSolver z { s with start := i },
    by rw [setStart, hs, Option.map_some], by simp [Heap.setSolver], by simp [Heap.setSolver, a4]⟩

/-- **C162 (copies).** The endgame of a copy of a solver refers to the tracker of the original. -/
theorem C162_copy (e : Env) (h h' : Heap) (z z' : ℕ) (hz : z' ≠ z) (hw : Wired e h z)
    (hr : copySolver z' z h = some h') : (h'.solvers z').map Solver.egTracker = some (.member z) ∧ ¬ Wired e h' z' := by
  obtain ⟨s, a1, a2, a3, a4⟩ := hw
  unfold copySolver assignTracker at hr
  rcases ht : h.trackers (.member z) with _ | t
  · rw [ht] at hr; cases hr
  rw [ht, Option.map_some, Option.bind_some] at hr
  have h1 : (h.setTr (.member z') t).solvers z = some s := a1
  rw [h1, Option.map_some, Option.some.injEq] at hr
  subst hr
  have h2 : ((h.setTr (.member z') t).setSolver z' s).solvers z' = some s := Function.update_self ..
  refine ⟨by rw [h2, Option.map_some, a3], ?_⟩
  rintro ⟨s', b1, -, b3, -⟩
  rw [h2, Option.some.injEq] at b1
  subst b1
  rw [a3] at b3
  exact hz (TId.member.inj b3).symm

/-- **C162 (given tracker).** After `SetTracker` with a tracker of the homotopy the solver is set up: its tracker is
the one given, its endgame refers to its own copy of it. With a tracker of another system it is not. -/
theorem C162_setTracker (e : Env) (h h' : Heap) (z : ℕ) (src : TId) (s : Solver) (hs : h.solvers z = some s)
    (hw : Wired e h z) (hr : (Op.setTracker z src).run e h = some h') :
    h'.trackers (.member z) = h.trackers src ∧ (h'.solvers z).map Solver.egTracker = some (.member z) ∧
    (Wired e h' z ↔ getSystem h src = some s.homotopy) := by
  obtain ⟨s', a1, -, -, a4⟩ := hw
  rw [hs, Option.some.injEq] at a1
  subst a1
  rcases ht : h.trackers src with _ | t
  · simp [Op.run, setTracker, assignTracker, ht] at hr
  have h1 : (h.setTr (.member z) t).solvers z = some s := hs
  simp only [Op.run, setTracker, assignTracker, ht, Option.map_some, Option.bind_some, h1, Option.some.injEq] at hr
  subst hr
  have h2 : ((h.setTr (.member z) t).setSolver z { s with egTracker := .member z }).solvers z =
    some { s with egTracker := .member z } := Function.update_self ..
  have h3 : ((h.setTr (.member z) t).setSolver z { s with egTracker := .member z }).trackers (.member z) = some t :=
    Function.update_self ..
  refine ⟨h3, by rw [h2]; rfl, ?_⟩
  constructor
  · rintro ⟨s', b1, b2, -⟩
    rw [h2, Option.some.injEq] at b1
    subst b1
    rw [getSystem, h3] at b2
    rw [getSystem, ht]
    exact b2
  · intro hg
    rw [getSystem, ht] at hg
    exact ⟨_, h2, by rw [getSystem, h3]; exact hg, rfl, a4⟩

/-- Sizes and numbers for the cases: system `i` has `i` functions and variables and `10 i` start points. -/
def e0 : Env := ⟨fun i => (i, i), fun i => 10 * i, fun _ => true, fun m => m + 1, 4, 7⟩

/-- A case: a solver on systems 1, 2, 3, settings changed, another solver and a copy made, the target replaced. -/
example : ∃ h, runOps e0 ([.newTracker 0 9] ++ .construct 0 1 2 3 :: [.setPredictor (.member 0) 1, .construct 1 4 5 6,
    .setTarget 0 8, .defaultSetup 0, .assignTracker (.user 0) (.member 0)]) Heap.empty = some h ∧
    (∀ o ∈ ([.setPredictor (.member 0) 1, .construct 1 4 5 6, .setTarget 0 8, .defaultSetup 0,
      .assignTracker (.user 0) (.member 0)] : List Op), ¬ Touches 0 o) ∧
    getSystem h (.member 0) = some 3 ∧ (h.solvers 0).map Solver.numStart = some 20 := by
  refine ⟨_, rfl, by simp [Touches], rfl, rfl⟩

/-- A case of `DefaultSetup` after the setters. -/
example : ∃ h, runOps e0 [.construct 0 1 2 3, .setHomotopy 0 6, .setStart 0 5, .defaultSetup 0] Heap.empty = some h ∧
    getSystem h (.member 0) = some 6 ∧ (h.solvers 0).map Solver.numStart = some 50 :=
  ⟨_, rfl, rfl, rfl⟩

/-- A case of `SetTracker`. -/
example : ∃ h h', runOps e0 [.newTracker 0 3, .construct 0 1 2 3] Heap.empty = some h ∧
    (Op.setTracker 0 (.user 0)).run e0 h = some h' ∧ getSystem h (.user 0) = some 3 ∧ getSystem h' (.member 0) = some 3 :=
  ⟨_, _, rfl, rfl, rfl, rfl⟩

/-- **C162 fails in general.** Replacing the homotopy of a solver leaves its tracker on the old one. -/
theorem C162_refuted : ¬ C162_full := by
  intro hf
  obtain ⟨s, h1, h2, -⟩ := hf e0 [.construct 0 1 2 3, .setHomotopy 0 6] _ 0 rfl rfl
  have h3 : (some ⟨1, 2, 6, 20, .member 0⟩ : Option Solver) = some s := h1
  rw [Option.some.injEq] at h3
  subst h3
  exact absurd h2 (by decide)

/-! ### C163 -/

/-- Calls that copy a tracker. -/
def Copies : Op → Prop
  | .assignTracker _ _ => True
  | .setTracker _ _ => True
  | .copySolver _ _ => True
  | _ => False

/-- Calls that are made on tracker `i`, or make it. -/
def ActsOn (i : TId) : Op → Prop
  | .newTracker n _ => i = .user n
  | .assignTracker d _ => i = d
  | .setPredictor j _ => i = j
  | .setSystem j _ => i = j
  | .setupTracker j _ _ => i = j
  | .construct z _ _ _ => i = .member z
  | .defaultSetup z => i = .member z
  | .setTracker z _ => i = .member z
  | .copySolver z _ => i = .member z
  | _ => False

/-- A tracker with the predictor and corrector it uses. -/
def view (h : Heap) (i : TId) : Option (Tracker × Cell) := (h.trackers i).map fun t => (t, h.cells t.cell)

/-- The predictor and corrector of a tracker are sized for the system it tracks, the order it computes step sizes with
is that of its predictor, and its corrector has its Newton settings. -/
def Fits (e : Env) (h : Heap) (i : TId) : Prop :=
  ∀ t c, view h i = some (t, c) → c.dims = e.dims t.sys ∧ t.order = e.order c.method ∧ c.settings = t.newton

/-- Trackers are consistent and independent: calls made on one do not change another. -/
def C163_full : Prop :=
  ∀ e ops h, runOps e ops Heap.empty = some h →
    (∀ i, Fits e h i) ∧ ∀ o h', o.run e h = some h' → ∀ i, ¬ ActsOn i o → view h' i = view h i

/-- No two trackers share a predictor. -/
structure Apart (e : Env) (h : Heap) : Prop where
  old : ∀ i t, h.trackers i = some t → t.cell < h.next
  inj : ∀ i j t t', h.trackers i = some t → h.trackers j = some t' → t.cell = t'.cell → i = j
  fits : ∀ i, Fits e h i

theorem fits_of {e : Env} {h : Heap} {i : TId}
    (hf : ∀ t, h.trackers i = some t → (h.cells t.cell).dims = e.dims t.sys ∧ t.order = e.order (h.cells t.cell).method ∧
      (h.cells t.cell).settings = t.newton) : Fits e h i := by
  intro t c hv
  unfold view at hv
  rcases ht : h.trackers i with _ | t'
  · rw [ht] at hv; cases hv
  rw [ht, Option.map_some, Option.some.injEq, Prod.mk.injEq] at hv
  obtain ⟨rfl, rfl⟩ := hv
  exact hf _ ht

theorem Fits.of {e : Env} {h : Heap} {i : TId} (hf : Fits e h i) {t : Tracker} (ht : h.trackers i = some t) :
    (h.cells t.cell).dims = e.dims t.sys ∧ t.order = e.order (h.cells t.cell).method ∧
      (h.cells t.cell).settings = t.newton := hf t _ (by rw [view, ht]; rfl)

/-- A change of one tracker and its own predictor. -/
theorem apart_update {e : Env} {h h' : Heap} (ha : Apart e h) {i : TId} {t t' : Tracker} {c : Cell}
    (ht : h.trackers i = some t) (hc : t'.cell = t.cell) (h1 : h'.next = h.next)
    (h2 : h'.trackers = Function.update h.trackers i (some t')) (h3 : h'.cells = Function.update h.cells t.cell c)
    (hf : c.dims = e.dims t'.sys ∧ t'.order = e.order c.method ∧ c.settings = t'.newton) :
    Apart e h' ∧ ∀ j, j ≠ i → view h' j = view h j := by
  have hcase : ∀ j x, h'.trackers j = some x → (j = i ∧ x = t') ∨ (j ≠ i ∧ h.trackers j = some x) := by
    intro j x hj
    rw [h2] at hj
    by_cases hji : j = i
    · subst hji
      rw [Function.update_self, Option.some.injEq] at hj
      exact Or.inl ⟨rfl, hj.symm⟩
    · rw [Function.update_of_ne hji] at hj
      exact Or.inr ⟨hji, hj⟩
  have hother : ∀ j x, j ≠ i → h.trackers j = some x → h'.cells x.cell = h.cells x.cell := by
    intro j x hji hj
    rw [h3, Function.update_of_ne]
    intro hx
    exact hji (ha.inj j i x t hj ht hx)
  refine ⟨⟨?_, ?_, ?_⟩, ?_⟩
  · intro j x hj
    rw [h1]
    rcases hcase j x hj with ⟨rfl, rfl⟩ | ⟨-, hj'⟩
    · rw [hc]; exact ha.old _ _ ht
    · exact ha.old _ _ hj'
  · intro j k x y hj hk hxy
    rcases hcase j x hj with ⟨rfl, rfl⟩ | ⟨hji, hj'⟩ <;> rcases hcase k y hk with ⟨rfl, rfl⟩ | ⟨hki, hk'⟩
    · rfl
    · exact ha.inj _ _ _ _ ht hk' (by rw [← hc, hxy])
    · exact ha.inj _ _ _ _ hj' ht (by rw [hxy, hc])
    · exact ha.inj _ _ _ _ hj' hk' hxy
  · intro j
    refine fits_of fun x hj => ?_
    rcases hcase j x hj with ⟨rfl, rfl⟩ | ⟨hji, hj'⟩
    · rw [hc, h3, Function.update_self]; exact hf
    · rw [hother j x hji hj']; exact (ha.fits j).of hj'
  · intro j hji
    unfold view
    rw [h2, Function.update_of_ne hji]
    rcases hj : h.trackers j with _ | x
    · rfl
    · rw [Option.map_some, Option.map_some, hother j x hji hj]

/-- A new tracker. -/
theorem apart_new {e : Env} {h h' : Heap} (ha : Apart e h) {i : TId} {t' : Tracker} {c : Cell}
    (hc : t'.cell = h.next) (h1 : h'.next = h.next + 1) (h2 : h'.trackers = Function.update h.trackers i (some t'))
    (h3 : h'.cells = Function.update h.cells h.next c)
    (hf : c.dims = e.dims t'.sys ∧ t'.order = e.order c.method ∧ c.settings = t'.newton) :
    Apart e h' ∧ ∀ j, j ≠ i → view h' j = view h j := by
  have hcase : ∀ j x, h'.trackers j = some x → (j = i ∧ x = t') ∨ (j ≠ i ∧ h.trackers j = some x) := by
    intro j x hj
    rw [h2] at hj
    by_cases hji : j = i
    · subst hji
      rw [Function.update_self, Option.some.injEq] at hj
      exact Or.inl ⟨rfl, hj.symm⟩
    · rw [Function.update_of_ne hji] at hj
      exact Or.inr ⟨hji, hj⟩
  have hother : ∀ j x, h.trackers j = some x → h'.cells x.cell = h.cells x.cell := by
    intro j x hj
    rw [h3, Function.update_of_ne (ha.old j x hj).ne]
  refine ⟨⟨?_, ?_, ?_⟩, ?_⟩
  · intro j x hj
    rw [h1]
    rcases hcase j x hj with ⟨rfl, rfl⟩ | ⟨-, hj'⟩
    · rw [hc]; omega
    · exact (ha.old _ _ hj').trans (Nat.lt_succ_self _)
  · intro j k x y hj hk hxy
    rcases hcase j x hj with ⟨rfl, rfl⟩ | ⟨hji, hj'⟩ <;> rcases hcase k y hk with ⟨rfl, rfl⟩ | ⟨hki, hk'⟩
    · rfl
    · have := ha.old _ _ hk'
      omega
    · have := ha.old _ _ hj'
      omega
    · exact ha.inj _ _ _ _ hj' hk' hxy
  · intro j
    refine fits_of fun x hj => ?_
    rcases hcase j x hj with ⟨rfl, rfl⟩ | ⟨hji, hj'⟩
    · rw [hc, h3, Function.update_self]; exact hf
    · rw [hother j x hj']; exact (ha.fits j).of hj'
  · intro j hji
    unfold view
    rw [h2, Function.update_of_ne hji]
    rcases hj : h.trackers j with _ | x
    · rfl
    · rw [Option.map_some, Option.map_some, hother j x hj]

theorem apart_same {e : Env} {h h' : Heap} (ha : Apart e h) (h1 : h'.next = h.next) (h2 : h'.trackers = h.trackers)
    (h3 : h'.cells = h.cells) : Apart e h' ∧ ∀ j, view h' j = view h j :=
  ⟨⟨by rw [h1, h2]; exact ha.old, by rw [h2]; exact ha.inj, fun i => by
    have := ha.fits i
    unfold Fits view at this ⊢
    rw [h2, h3]
    exact this⟩, fun j => by unfold view; rw [h2, h3]⟩

theorem apart_run {e : Env} {o : Op} {h h' : Heap} (ha : Apart e h) (ho : ¬ Copies o) (hr : o.run e h = some h') :
    Apart e h' ∧ ∀ i, ¬ ActsOn i o → view h' i = view h i := by
  cases o with
  | newTracker n s =>
    simp only [Op.run, Option.some.injEq] at hr
    subst hr
    exact apart_new ha (i := .user n) (t' := ⟨s, h.next, e.order e.dflt, e.newton⟩)
      (c := ⟨e.dflt, e.dims s, e.newton⟩) rfl rfl rfl rfl ⟨rfl, rfl, rfl⟩
  | assignTracker d s => exact absurd trivial ho
  | setPredictor i m =>
    obtain ⟨t, a1, a2, a3, a4, a5⟩ := setPredictor_spec (show setPredictor e i m h = some h' from hr)
    obtain ⟨f1, f2, f3⟩ := (ha.fits i).of a1
    refine apart_update ha a1 ?_ a3 a4 a5 ⟨f1, rfl, f3⟩
    rfl
  | setSystem i m =>
    obtain ⟨t, a1, a2, a3, a4, a5⟩ := setSystem_spec (show setSystem e i m h = some h' from hr)
    obtain ⟨f1, f2, f3⟩ := (ha.fits i).of a1
    refine apart_update ha a1 ?_ a3 a4 a5 ⟨rfl, f2, f3⟩
    rfl
  | setupTracker i m n =>
    obtain ⟨t, a1, a2, a3, a4, a5⟩ := setup_spec (show setupTracker e i m n h = some h' from hr)
    obtain ⟨f1, f2, f3⟩ := (ha.fits i).of a1
    refine apart_update ha a1 ?_ a3 a4 a5 ⟨f1, rfl, rfl⟩
    rfl
  | construct z t k hm =>
    obtain ⟨a1, a2, a3, a4, a5⟩ := construct_spec (show construct e z t k hm h = some h' from hr)
    refine apart_new ha ?_ a2 a4 a5 ⟨rfl, rfl, rfl⟩
    rfl
  | defaultSetup z =>
    obtain ⟨s, t, a1, a2, a3, a4, a5, a6⟩ := defaultSetup_spec (show defaultSetup e z h = some h' from hr)
    refine apart_update ha a2 ?_ a3 a5 a6 ⟨rfl, rfl, rfl⟩
    rfl
  | setTracker z s => exact absurd trivial ho
  | copySolver z z' => exact absurd trivial ho
  | setEndgame z i =>
    simp only [Op.run, setEndgame] at hr
    rcases hz' : h.solvers z with _ | s'
    · rw [hz'] at hr; cases hr
    rw [hz', Option.map_some, Option.some.injEq] at hr
    subst hr
    obtain ⟨b1, b2⟩ := apart_same (h' := h.setSolver z _) ha rfl rfl rfl
    exact ⟨b1, fun i _ => b2 i⟩
  | setTarget z i =>
    simp only [Op.run, setTarget] at hr
    rcases hz' : h.solvers z with _ | s'
    · rw [hz'] at hr; cases hr
    rw [hz', Option.map_some, Option.some.injEq] at hr
    subst hr
    obtain ⟨b1, b2⟩ := apart_same (h' := h.setSolver z _) ha rfl rfl rfl
    exact ⟨b1, fun i _ => b2 i⟩
  | setStart z i =>
    simp only [Op.run, setStart] at hr
    rcases hz' : h.solvers z with _ | s'
    · rw [hz'] at hr; cases hr
    rw [hz', Option.map_some, Option.some.injEq] at hr
    subst hr
    obtain ⟨b1, b2⟩ := apart_same (h' := h.setSolver z _) ha rfl rfl rfl
    exact ⟨b1, fun i _ => b2 i⟩
  | setHomotopy z i =>
    simp only [Op.run, setHomotopy] at hr
    rcases hz' : h.solvers z with _ | s'
    · rw [hz'] at hr; cases hr
    rw [hz', Option.map_some, Option.some.injEq] at hr
    subst hr
    obtain ⟨b1, b2⟩ := apart_same (h' := h.setSolver z _) ha rfl rfl rfl
    exact ⟨b1, fun i _ => b2 i⟩

theorem apart_runOps {e : Env} : ∀ (ops : List Op) {h h' : Heap}, Apart e h → (∀ o ∈ ops, ¬ Copies o) →
    runOps e ops h = some h' → Apart e h'
  | [], h, h', ha, _, hr => by
    rw [runOps, Option.some.injEq] at hr
    rwa [← hr]
  | o :: ops, h, h', ha, ho, hr => by
    rw [runOps] at hr
    rcases h1 : o.run e h with _ | h1'
    · rw [h1] at hr; cases hr
    rw [h1, Option.bind_some] at hr
    exact apart_runOps ops (apart_run ha (ho o (by simp)) h1).1 (fun o ho' => ho o (by simp [ho'])) hr

/-- **C163.** In every program that copies no tracker, every tracker's predictor and corrector are sized for the
system it tracks, its order is that of its predictor and its corrector has its Newton settings; and a call made on one
tracker or solver changes nothing of another tracker. -/
theorem C163_partial (e : Env) (ops : List Op) (h : Heap) (hc : ∀ o ∈ ops, ¬ Copies o)
    (hr : runOps e ops Heap.empty = some h) :
    (∀ i, Fits e h i) ∧
    ∀ o h', ¬ Copies o → o.run e h = some h' → ∀ i, ¬ ActsOn i o → view h' i = view h i := by
  have ha : Apart e h := apart_runOps ops ⟨(fun _ _ hc => by cases hc), (fun _ _ _ _ hc => by cases hc),
    (fun i t c hv => by cases hv)⟩ hc hr
  exact ⟨ha.fits, fun o h' ho hr => (apart_run ha ho hr).2⟩

/-- **C163 (copies).** After a tracker is copied, `SetPredictor` on the copy changes the predictor of the original,
but not the order with which the original computes step sizes; `SetSystem` on the copy resizes the workspace of the
original's predictor and corrector for the new system, which the original does not track. -/
theorem C163_copies (e : Env) (h : Heap) (d s : TId) (hd : d ≠ s) (t : Tracker) (ht : h.trackers s = some t) (m : ℕ) :
    (∃ h1 h2, assignTracker d s h = some h1 ∧ setPredictor e d m h1 = some h2 ∧ getPredictor h2 s = some m ∧
      h2.trackers s = some t) ∧
    ∃ h1 h2, assignTracker d s h = some h1 ∧ setSystem e d m h1 = some h2 ∧ getSystem h2 s = some t.sys ∧
      (view h2 s).map (fun p => p.2.dims) = some (e.dims m) := by
  have h1 : assignTracker d s h = some (h.setTr d t) := by rw [assignTracker, ht, Option.map_some]
  have h2 : (h.setTr d t).trackers d = some t := Function.update_self ..
  refine ⟨⟨_, _, h1, by rw [setPredictor, h2, Option.map_some], ?_, ?_⟩, _, _, h1,
    by rw [setSystem, h2, Option.map_some], ?_, ?_⟩
  all_goals
    have hs : s ≠ d := hd.symm
    simp [getPredictor, getSystem, view, Heap.setTr, Heap.setCell, Function.update, hs, ht]

/-- A case: two trackers and a solver, each with its own predictor. -/
example : ∃ h, runOps e0 [.newTracker 0 1, .construct 0 1 2 3, .newTracker 1 2, .setPredictor (.user 0) 6,
    .setSystem (.user 1) 5] Heap.empty = some h ∧
    (∀ o ∈ ([.newTracker 0 1, .construct 0 1 2 3, .newTracker 1 2, .setPredictor (.user 0) 6,
      .setSystem (.user 1) 5] : List Op), ¬ Copies o) ∧
    view h (.user 0) = some (⟨1, 0, 7, 7⟩, ⟨6, (1, 1), 7⟩) ∧ view h (.member 0) = some (⟨3, 1, 5, 7⟩, ⟨4, (3, 3), 7⟩) ∧
    view h (.user 1) = some (⟨5, 2, 5, 7⟩, ⟨4, (5, 5), 7⟩) :=
  ⟨_, rfl, by simp [Copies], rfl, rfl, rfl⟩

/-- **C163 fails in general.** `SetTracker` makes the solver's tracker share its predictor with the user's; a later
`SetPredictor` on the user's tracker changes the solver's. -/
theorem C163_refuted : ¬ C163_full := by
  intro hf
  have h1 := (hf e0 [.newTracker 0 3, .construct 0 1 2 3, .setTracker 0 (.user 0)] _ rfl).2
    (.setPredictor (.user 0) 6) _ rfl (.member 0) (by simp [ActsOn])
  exact absurd h1 (by decide)

end B2.Alg.Wire
