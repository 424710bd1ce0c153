import Verif.Alg.Metadata
import Verif.Alg.PropsZeroDim

/-!
# C137, C138: metadata and step sizes
-/

namespace B2.Alg.Md

open B2.Track (Code)

variable {d : ℕ}

/-! ## C137 -/

/-- All members have a value. -/
def Complete (r : Rec) : Prop :=
  r.pathIndex ≠ none ∧ r.solIndex ≠ none ∧ r.cond ≠ none ∧ r.newton ≠ none ∧ r.time ≠ none ∧ r.acc ≠ none ∧
    r.accUser ≠ none ∧ r.cycle ≠ none ∧ r.resid ≠ none ∧ r.isReal ≠ none ∧ r.isFinite ≠ none ∧ r.isSingular ≠ none

/-- The members computed by the endgame have the values that `x` gives. -/
def EgIs (r : Rec) (x : Option EgData) : Prop :=
  r.cond = x.map (·.cond) ∧ r.newton = x.map (·.newton) ∧ r.time = x.map (·.time) ∧ r.acc = x.map (·.acc) ∧
    r.accUser = x.map (·.accUser) ∧ r.cycle = x.map (·.cycle) ∧ r.resid = x.map (·.resid)

/-- Call number `k` is the last endgame run on path `i`. -/
def IsLastEg (i : ℕ) (log : List (Ev d)) (k : ℕ) : Prop :=
  (∃ x, log[k]? = some (Ev.endgame i x)) ∧ ∀ (k' : ℕ) (x : Pt d), log[k']? = some (Ev.endgame i x) → k' ≤ k

/-- C137 in full: after any call of `Solve`, the metadata of every path are complete. -/
def C137_full : Prop :=
  ∀ (d N : ℕ) (E : ZEnv d) (cfg : ZCfg) (s : ZSt d) (D : ℕ → EgData), Reach N s →
    ∀ i, i < N → Complete (records D (solve N E cfg s).log i)

theorem fold_count (D : ℕ → EgData) (log : List (Ev d)) (p : ℕ × (ℕ → Rec)) :
    (log.foldl (fun p ev => (p.1 + 1, record D p.1 p.2 ev)) p).1 = p.1 + log.length := by
  induction log generalizing p with
  | nil => rfl
  | cons e log ih => rw [List.foldl_cons, ih, List.length_cons]; dsimp only; omega

theorem records_snoc (D : ℕ → EgData) (log : List (Ev d)) (e : Ev d) :
    records D (log ++ [e]) = record D log.length (records D log) e := by
  unfold records
  rw [List.foldl_append, List.foldl_cons, List.foldl_nil]
  dsimp only
  rw [fold_count]
  simp

theorem getElem?_snoc {α : Type} (l : List α) (a : α) (k : ℕ) (b : α) :
    (l ++ [a])[k]? = some b ↔ l[k]? = some b ∨ k = l.length ∧ a = b := by
  rcases Nat.lt_trichotomy k l.length with h | h | h
  · rw [List.getElem?_append_left h]
    constructor
    · exact Or.inl
    · rintro (h' | h')
      · exact h'
      · omega
  · subst h
    simp
  · rw [List.getElem?_append_right (by omega), List.getElem?_eq_none (by simp; omega), List.getElem?_eq_none (by omega)]
    simp only [reduceCtorEq, false_or, false_iff]
    omega

theorem records_eg (D : ℕ → EgData) (log : List (Ev d)) (i : ℕ) :
    ((∃ k, IsLastEg i log k ∧ EgIs (records D log i) (some (D k))) ∨
      (∀ (k : ℕ) (x : Pt d), log[k]? ≠ some (Ev.endgame i x)) ∧ EgIs (records D log i) none) ∧
    (records D log i).isReal = none ∧ (records D log i).isFinite = none ∧ (records D log i).isSingular = none ∧
    ((∃ (k : ℕ) (tol : ℝ), log[k]? = some (Ev.before i tol)) →
      (records D log i).pathIndex = some i ∧ (records D log i).solIndex = some i) := by
  induction log using List.reverseRecOn with
  | nil =>
    refine ⟨Or.inr ⟨by simp, ⟨rfl, rfl, rfl, rfl, rfl, rfl, rfl⟩⟩, rfl, rfl, rfl, ?_⟩
    rintro ⟨k, tol, h⟩
    simp at h
  | append_singleton log e ih =>
    rw [records_snoc]
    obtain ⟨h1, h2, h3, h4, h5⟩ := ih
    cases e with
    | before j tol =>
      have hEg : ∀ (k : ℕ) (x : Pt d), (log ++ [Ev.before j tol])[k]? = some (Ev.endgame i x) ↔ log[k]? = some (Ev.endgame i x) := by
        intro k x
        rw [getElem?_snoc]
        simp
      have hL : ∀ k, IsLastEg i (log ++ [Ev.before j tol]) k ↔ IsLastEg i log k := by
        intro k
        unfold IsLastEg
        simp only [hEg]
      by_cases hij : j = i
      · subst hij
        simp only [record, Function.update_self]
        refine ⟨?_, h2, h3, h4, fun _ => ⟨trivial, trivial⟩⟩
        rcases h1 with ⟨k, a, b⟩ | ⟨a, b⟩
        · exact Or.inl ⟨k, (hL k).2 a, b⟩
        · exact Or.inr ⟨fun k x => by rw [ne_eq, hEg]; exact a k x, b⟩
      · simp only [record, Function.update_of_ne (Ne.symm hij)]
        refine ⟨?_, h2, h3, h4, ?_⟩
        · rcases h1 with ⟨k, a, b⟩ | ⟨a, b⟩
          · exact Or.inl ⟨k, (hL k).2 a, b⟩
          · exact Or.inr ⟨fun k x => by rw [ne_eq, hEg]; exact a k x, b⟩
        · rintro ⟨k, t, hk⟩
          rw [getElem?_snoc] at hk
          rcases hk with hk | ⟨-, hk⟩
          · exact h5 ⟨k, t, hk⟩
          · simp only [Ev.before.injEq] at hk
            exact absurd hk.1 hij
    | endgame j y =>
      have hB : (∃ (k : ℕ) (tol : ℝ), (log ++ [Ev.endgame j y])[k]? = some (Ev.before i tol)) → ∃ (k : ℕ) (tol : ℝ), log[k]? = some (Ev.before i tol) := by
        rintro ⟨k, t, hk⟩
        rw [getElem?_snoc] at hk
        rcases hk with hk | ⟨-, hk⟩
        · exact ⟨k, t, hk⟩
        · cases hk
      by_cases hij : j = i
      · subst hij
        simp only [record, Function.update_self]
        refine ⟨Or.inl ⟨log.length, ⟨⟨y, by simp⟩, ?_⟩, ⟨rfl, rfl, rfl, rfl, rfl, rfl, rfl⟩⟩, h2, h3, h4, fun h => h5 (hB h)⟩
        intro k' x hk
        rw [getElem?_snoc] at hk
        rcases hk with hk | ⟨hk, -⟩
        · have := (List.getElem?_eq_some_iff.1 hk).1
          omega
        · omega
      · simp only [record, Function.update_of_ne (Ne.symm hij)]
        have hEg : ∀ (k : ℕ) (x : Pt d), (log ++ [Ev.endgame j y])[k]? = some (Ev.endgame i x) ↔ log[k]? = some (Ev.endgame i x) := by
          intro k x
          rw [getElem?_snoc]
          constructor
          · rintro (h | ⟨-, h⟩)
            · exact h
            · simp only [Ev.endgame.injEq] at h
              exact absurd h.1 hij
          · exact Or.inl
        refine ⟨?_, h2, h3, h4, fun h => h5 (hB h)⟩
        rcases h1 with ⟨k, a, b⟩ | ⟨a, b⟩
        · refine Or.inl ⟨k, ?_, b⟩
          unfold IsLastEg
          simp only [hEg]
          exact a
        · exact Or.inr ⟨fun k x => by rw [ne_eq, hEg]; exact a k x, b⟩

theorem egEvent_of {bdry : List (Bdry d)} {i j : ℕ} {x : Pt d} (h : egEvent bdry j = some (Ev.endgame i x)) :
    j = i ∧ ∃ b, bdry[i]? = some b ∧ b.code = .success ∧ x = b.pt := by
  unfold egEvent at h
  split at h
  · rename_i b hb
    split_ifs at h with hc
    simp only [Option.some.injEq, Ev.endgame.injEq] at h
    obtain ⟨rfl, rfl⟩ := h
    exact ⟨rfl, b, hb, hc, rfl⟩
  · cases h

theorem retracks_before {shrink tol : ℝ} {rounds : List (List ℕ)} : ∀ e ∈ (retracks shrink tol rounds : List (Ev d)),
    ∃ j t, e = .before j t := by
  induction rounds generalizing tol with
  | nil => intro e he; cases he
  | cons L Ls ih =>
    intro e he
    rw [retracks] at he
    rcases List.mem_append.1 he with he | he
    · obtain ⟨j, -, rfl⟩ := List.mem_map.1 he
      exact ⟨j, _, rfl⟩
    · exact ih e he

/-- C137 exactly.  After a call of `Solve`, for every path: the indices are those of the path; the members computed by the
endgame are those of the last endgame run on the path, in this or an earlier call, and are never assigned if there was none;
a path that arrived at the boundary has had such a run in this call, another path has not, so in the first call it has none; the
flags `is_real`, `is_finite` and `is_singular` are never assigned. -/
theorem C137_partial {N : ℕ} (E : ZEnv d) (cfg : ZCfg) (s : ZSt d) (D : ℕ → EgData) (hr : Reach N s) (i : ℕ) (hi : i < N) :
    (records D (solve N E cfg s).log i).pathIndex = some i ∧ (records D (solve N E cfg s).log i).solIndex = some i ∧
    (records D (solve N E cfg s).log i).isReal = none ∧ (records D (solve N E cfg s).log i).isFinite = none ∧
    (records D (solve N E cfg s).log i).isSingular = none ∧
    (∀ k, IsLastEg i (solve N E cfg s).log k → EgIs (records D (solve N E cfg s).log i) (some (D k))) ∧
    ((∀ (k : ℕ) (x : Pt d), (solve N E cfg s).log[k]? ≠ some (Ev.endgame i x)) → EgIs (records D (solve N E cfg s).log i) none) ∧
    ∃ m, (solve N E cfg s).md[i]? = some m ∧
      (m.pre = .success → ∃ k, s.log.length ≤ k ∧ IsLastEg i (solve N E cfg s).log k) ∧
      (m.pre ≠ .success → ∀ k, IsLastEg i (solve N E cfg s).log k → k < s.log.length) ∧
      (s.log = [] → m.pre ≠ .success → EgIs (records D (solve N E cfg s).log i) none) := by
  obtain ⟨s', rounds, e, h2, h3, h4, h5, h6, h7, h8⟩ := C56 E cfg s hr
  rw [e]
  obtain ⟨g1, g2, g3, g4, g5⟩ := records_eg D s'.log i
  have hbef : ∃ (k : ℕ) (tol : ℝ), s'.log[k]? = some (Ev.before i tol) := by
    have hm : Ev.before i cfg.newtonBefore ∈ s'.log := by
      rw [h4]
      simp [hi]
    obtain ⟨k, hk⟩ := List.mem_iff_getElem?.1 hm
    exact ⟨k, _, hk⟩
  obtain ⟨m, b, x, k1, k2, k3, k4, k5, k6, k7⟩ := h8 i hi
  have hnone : (∀ (k : ℕ) (x : Pt d), s'.log[k]? ≠ some (Ev.endgame i x)) → EgIs (records D s'.log i) none := by
    intro hn
    rcases g1 with ⟨k, ⟨⟨x, hx⟩, -⟩, -⟩ | ⟨-, h⟩
    · exact absurd hx (hn k x)
    · exact h
  have hold : m.pre ≠ .success → ∀ (k : ℕ) (x : Pt d), s'.log[k]? = some (Ev.endgame i x) → k < s.log.length := by
    intro hp k x hk
    by_contra hge
    rw [h4, List.append_assoc, List.append_assoc, List.getElem?_append_right (by omega)] at hk
    rcases List.mem_append.1 (List.mem_of_getElem? hk) with hm | hm
    · simp at hm
    · rcases List.mem_append.1 hm with hm | hm
      · obtain ⟨j, t, hh⟩ := retracks_before _ hm
        cases hh
      · obtain ⟨j, -, hj⟩ := List.mem_filterMap.1 hm
        obtain ⟨rfl, b', hb', hc, -⟩ := egEvent_of hj
        rw [k2] at hb'
        simp only [Option.some.injEq] at hb'
        subst hb'
        exact hp (k5.trans hc)
  refine ⟨(g5 hbef).1, (g5 hbef).2, g2, g3, g4, ?_, hnone, m, k1, ?_, ?_, ?_⟩
  · intro k hk
    rcases g1 with ⟨k', hk', h⟩ | ⟨hn, -⟩
    · have : k = k' := by
        obtain ⟨⟨x, hx⟩, a⟩ := hk
        obtain ⟨⟨y, hy⟩, b⟩ := hk'
        exact le_antisymm (b k x hx) (a k' y hy)
      rw [this]; exact h
    · obtain ⟨⟨x, hx⟩, -⟩ := hk
      exact absurd hx (hn k x)
  · intro hp
    have hm : Ev.endgame i b.pt ∈ ((List.range N).map fun j => Ev.before j cfg.newtonBefore) ++
        retracks cfg.shrink cfg.newtonBefore rounds ++ (List.range N).filterMap (egEvent s'.bdry) := by
      refine List.mem_append_right _ (List.mem_filterMap.2 ⟨i, List.mem_range.2 hi, ?_⟩)
      unfold egEvent
      rw [k2]
      simp [← k5, hp]
    rcases g1 with ⟨k, hk, -⟩ | ⟨hn, -⟩
    · obtain ⟨q, hq⟩ := List.mem_iff_getElem?.1 hm
      refine ⟨k, ?_, hk⟩
      have hq' : s'.log[s.log.length + q]? = some (Ev.endgame i b.pt) := by
        rw [h4, List.append_assoc, List.append_assoc, List.getElem?_append_right (by omega), Nat.add_sub_cancel_left,
          ← List.append_assoc]
        exact hq
      have := hk.2 _ _ hq'
      omega
    · exfalso
      have hm' : Ev.endgame i b.pt ∈ s'.log := by
        rw [h4, List.append_assoc, List.append_assoc, ← List.append_assoc (List.map _ _)]
        exact List.mem_append_right _ hm
      obtain ⟨k, hk⟩ := List.mem_iff_getElem?.1 hm'
      exact hn k _ hk
  · intro hp k hk
    exact hold hp k _ hk.1.choose_spec
  · intro h0 hp
    refine hnone ?_
    intro k x hk
    have := hold hp k x hk
    rw [h0] at this
    simp at this

/-- C137 in full fails: the flags are never set. -/
theorem C137_refuted : ¬ C137_full := by
  intro h
  have h1 := h 1 2 (meetEnv .success) zcfgD (ZSt.init 1) (fun _ => ⟨0, 0, 0, 0, 0, 0, 0⟩) Reach.init 0 (by norm_num)
  obtain ⟨-, -, h2, -⟩ := C137_partial (N := 2) (meetEnv .success) zcfgD (ZSt.init 1) (fun _ => ⟨0, 0, 0, 0, 0, 0, 0⟩)
    Reach.init 0 (by norm_num)
  exact h1.2.2.2.2.2.2.2.2.2.1 h2

/-- Both cases occur: a path that arrives has the data of an endgame run, a path that fails in the first call has none. -/
example (D : ℕ → EgData) :
    (∃ k, EgIs (records D (solve 2 (meetEnv .success) zcfgD (ZSt.init 1)).log 0) (some (D k))) ∧
    EgIs (records D (solve 2 (meetEnv .minStepSizeReached) zcfgD (ZSt.init 1)).log 0) none := by
  constructor
  · obtain ⟨-, -, -, -, -, h6, -, m, h7, h8, -⟩ := C137_partial (N := 2) (meetEnv .success) zcfgD (ZSt.init 1) D
      Reach.init 0 (by norm_num)
    obtain ⟨s', rounds, e, -, -, -, -, -, -, hall⟩ := C56 (N := 2) (meetEnv .success) zcfgD (ZSt.init 1) Reach.init
    obtain ⟨m', b, x, g1, -, -, -, g4, ⟨_, _, g6⟩, -⟩ := hall 0 (by norm_num)
    rw [e, g1] at h7
    cases h7
    obtain ⟨k, -, hk⟩ := h8 (by rw [g4]; exact (congrArg Prod.fst g6).symm)
    exact ⟨k, h6 k hk⟩
  · obtain ⟨-, -, -, -, -, -, -, m, h7, -, -, h9⟩ := C137_partial (N := 2) (meetEnv .minStepSizeReached) zcfgD (ZSt.init 1) D
      Reach.init 0 (by norm_num)
    obtain ⟨s', rounds, e, -, -, -, -, -, -, hall⟩ := C56 (N := 2) (meetEnv .minStepSizeReached) zcfgD (ZSt.init 1) Reach.init
    obtain ⟨m', b, x, g1, -, -, -, g4, ⟨_, _, g6⟩, -⟩ := hall 0 (by norm_num)
    rw [e, g1] at h7
    cases h7
    exact h9 rfl (by
      have hc : b.code = .minStepSizeReached := (congrArg Prod.fst g6).symm
      rw [g4, hc]
      simp)

/-! ## C138 -/

/-- C138 in full: in any call of `Solve`, every path is tracked from the start with the initial step size of the settings. -/
def C138_full : Prop :=
  ∀ (d N : ℕ) (ini : ℕ → ℝ) (fin : ℕ → ℝ → ℝ) (s : ZSt d), Reach N s →
    ∀ (k : ℕ) (i : ℕ) (tol : ℝ), s.log[k]? = some (Ev.before i tol) → (steps ini fin s.log).starts[k]? = some (ini k)

/-- An endgame has been run before call `k`. -/
def EgBefore (log : List (Ev d)) (k : ℕ) : Prop := ∃ (k' i : ℕ) (x : Pt d), k' < k ∧ log[k']? = some (Ev.endgame i x)

/-- Call number `k` is the last one before call `n` that tracked path `i` from the start. -/
def LastRun (log : List (Ev d)) (i n k : ℕ) : Prop :=
  k < n ∧ (∃ tol, log[k]? = some (Ev.before i tol)) ∧
    ∀ (k' : ℕ) (tol : ℝ), k' < n → log[k']? = some (Ev.before i tol) → k' ≤ k

theorem steps_snoc (ini : ℕ → ℝ) (fin : ℕ → ℝ → ℝ) (log : List (Ev d)) (e : Ev d) :
    steps ini fin (log ++ [e]) = (steps ini fin log).next ini fin e := by
  unfold steps
  rw [List.foldl_append]
  rfl

/-- What the state of the step size says about the log. -/
structure StepInv (ini : ℕ → ℝ) (fin : ℕ → ℝ → ℝ) (log : List (Ev d)) : Prop where
  cnt : (steps ini fin log).k = log.length
  len : (steps ini fin log).starts.length = log.length
  flag : (steps ini fin log).reinit = false ↔ EgBefore log log.length
  last : ∀ k h, (steps ini fin log).starts[k]? = some h → k + 1 = log.length → (steps ini fin log).step = fin k h
  saved : ∀ i k h, LastRun log i log.length k → (steps ini fin log).starts[k]? = some h →
    (steps ini fin log).saved i = fin k h

theorem egBefore_snoc (log : List (Ev d)) (e : Ev d) {k : ℕ} (hk : k ≤ log.length) :
    EgBefore (log ++ [e]) k ↔ EgBefore log k := by
  unfold EgBefore
  refine exists_congr fun k' => exists_congr fun i => exists_congr fun x => ?_
  constructor
  · rintro ⟨h1, h2⟩
    rw [getElem?_snoc] at h2
    rcases h2 with h2 | ⟨h2, -⟩
    · exact ⟨h1, h2⟩
    · omega
  · rintro ⟨h1, h2⟩
    exact ⟨h1, by rw [getElem?_snoc]; exact Or.inl h2⟩

theorem lastRun_snoc (log : List (Ev d)) (e : Ev d) {i n k : ℕ} (hn : n ≤ log.length) :
    LastRun (log ++ [e]) i n k ↔ LastRun log i n k := by
  unfold LastRun
  have h : ∀ (k' : ℕ) (tol : ℝ), k' < n → ((log ++ [e])[k']? = some (Ev.before i tol) ↔ log[k']? = some (Ev.before i tol)) := by
    intro k' tol hk'
    rw [List.getElem?_append_left (by omega)]
  constructor
  · rintro ⟨h1, ⟨t, h2⟩, h3⟩
    exact ⟨h1, ⟨t, (h k t h1).1 h2⟩, fun k' t' hk' hh => h3 k' t' hk' ((h k' t' hk').2 hh)⟩
  · rintro ⟨h1, ⟨t, h2⟩, h3⟩
    exact ⟨h1, ⟨t, (h k t h1).2 h2⟩, fun k' t' hk' hh => h3 k' t' hk' ((h k' t' hk').1 hh)⟩

/-- The step sizes with which the calls start. -/
def StartsOk (ini : ℕ → ℝ) (fin : ℕ → ℝ → ℝ) (log : List (Ev d)) (S : List ℝ) : Prop :=
  (∀ (k i : ℕ) (tol : ℝ), log[k]? = some (Ev.before i tol) →
      (¬ EgBefore log k → S[k]? = some (ini k)) ∧
      (EgBefore log k → ∃ h, S[k - 1]? = some h ∧ S[k]? = some (fin (k - 1) h))) ∧
  ∀ (k i : ℕ) (x : Pt d), log[k]? = some (Ev.endgame i x) → ∀ k', LastRun log i k k' →
    ∃ h, S[k']? = some h ∧ S[k]? = some (fin k' h)

theorem steps_inv (ini : ℕ → ℝ) (fin : ℕ → ℝ → ℝ) (log : List (Ev d)) :
    StepInv ini fin log ∧ StartsOk ini fin log (steps ini fin log).starts := by
  induction log using List.reverseRecOn with
  | nil =>
    refine ⟨⟨rfl, rfl, ?_, ?_, ?_⟩, ?_, ?_⟩
    · simp [steps, StepSt.init, EgBefore]
    · intro k h hk; simp [steps, StepSt.init] at hk
    · rintro i k h ⟨hk, -⟩; simp at hk
    · intro k i tol h; simp at h
    · intro k i x h; simp at h
  | append_singleton log e ih =>
    obtain ⟨⟨c1, c2, c3, c4, c5⟩, o1, o2⟩ := ih
    generalize hT : steps ini fin log = T at c1 c2 c3 c4 c5 o1 o2
    have hlt : ∀ {k : ℕ} {e' : Ev d}, log[k]? = some e' → k < log.length := fun h => (List.getElem?_eq_some_iff.1 h).1
    -- what was true before the call
    have keep : ∀ h0 : ℝ, (∀ (k i : ℕ) (tol : ℝ), log[k]? = some (Ev.before i tol) →
        (¬ EgBefore (log ++ [e]) k → (T.starts ++ [h0])[k]? = some (ini k)) ∧
        (EgBefore (log ++ [e]) k → ∃ h, (T.starts ++ [h0])[k - 1]? = some h ∧ (T.starts ++ [h0])[k]? = some (fin (k - 1) h))) ∧
        ∀ (k i : ℕ) (x : Pt d), log[k]? = some (Ev.endgame i x) → ∀ k', LastRun (log ++ [e]) i k k' →
          ∃ h, (T.starts ++ [h0])[k']? = some h ∧ (T.starts ++ [h0])[k]? = some (fin k' h) := by
      intro h0
      constructor
      · intro k i tol hk
        have hk' := hlt hk
        rw [egBefore_snoc _ _ (le_of_lt hk'), List.getElem?_append_left (by omega), List.getElem?_append_left (by omega)]
        exact o1 k i tol hk
      · intro k i x hk k' hl
        have hk' := hlt hk
        rw [lastRun_snoc _ _ (le_of_lt hk')] at hl
        rw [List.getElem?_append_left (by have := hl.1; omega), List.getElem?_append_left (by omega)]
        exact o2 k i x hk k' hl
    have hend : ∀ h0 : ℝ, (T.starts ++ [h0])[log.length]? = some h0 := by
      intro h0
      rw [getElem?_snoc]
      exact Or.inr ⟨c2.symm, rfl⟩
    cases e with
    | before j t =>
      have hflag : T.reinit = false ↔ EgBefore log log.length := c3
      -- the start of this call
      have hstart : (¬ EgBefore log log.length → (if T.reinit then ini T.k else T.step) = ini log.length) ∧
          (EgBefore log log.length → ∃ h, T.starts[log.length - 1]? = some h ∧
            (if T.reinit then ini T.k else T.step) = fin (log.length - 1) h) := by
        constructor
        · intro hn
          have : T.reinit = true := by
            cases hb : T.reinit with
            | true => rfl
            | false => exact absurd (hflag.1 hb) hn
          rw [this, c1]
          rfl
        · intro he
          have hpos : 0 < log.length := by
            obtain ⟨k', _, _, hk', -⟩ := he
            omega
          obtain ⟨h, hh⟩ : ∃ h, T.starts[log.length - 1]? = some h :=
            ⟨_, List.getElem?_eq_getElem (by omega)⟩
          refine ⟨h, hh, ?_⟩
          rw [hflag.2 he, ← c4 (log.length - 1) h hh (by omega)]
          rfl
      obtain ⟨k1, k2⟩ := keep (if T.reinit then ini T.k else T.step)
      refine ⟨⟨?_, ?_, ?_, ?_, ?_⟩, ?_, ?_⟩ <;> simp only [steps_snoc, hT]
      · simp [StepSt.next, c1]
      · simp [StepSt.next, c2]
      · simp only [StepSt.next, List.length_append, List.length_singleton]
        rw [hflag]
        unfold EgBefore
        constructor
        · rintro ⟨k', i, x, h1, h2⟩
          exact ⟨k', i, x, by omega, by rw [getElem?_snoc]; exact Or.inl h2⟩
        · rintro ⟨k', i, x, h1, h2⟩
          rw [getElem?_snoc] at h2
          rcases h2 with h2 | ⟨-, h2⟩
          · exact ⟨k', i, x, hlt h2, h2⟩
          · cases h2
      · intro k h hk hl
        simp only [List.length_append, List.length_singleton] at hl
        have hkl : k = log.length := by omega
        subst hkl
        simp only [StepSt.next] at hk ⊢
        rw [hend] at hk
        simp only [Option.some.injEq] at hk
        rw [hk, c1]
      · intro i k h hl hk
        simp only [StepSt.next] at hk ⊢
        obtain ⟨hl1, ⟨tol, hl2⟩, hl3⟩ := hl
        simp only [List.length_append, List.length_singleton] at hl1 hl3
        by_cases hij : i = j
        · subst hij
          have hkl : k = log.length := by
            have := hl3 log.length t (by omega) (by rw [getElem?_snoc]; exact Or.inr ⟨rfl, rfl⟩)
            omega
          subst hkl
          rw [hend] at hk
          simp only [Option.some.injEq] at hk
          rw [Function.update_self, hk, c1]
        · rw [Function.update_of_ne hij]
          rw [getElem?_snoc] at hl2
          rcases hl2 with hl2 | ⟨-, hl2⟩
          · refine c5 i k h ⟨hlt hl2, ⟨tol, hl2⟩, fun k' t' hk' hh => hl3 k' t' (by omega) ?_⟩ ?_
            · rw [getElem?_snoc]; exact Or.inl hh
            · rw [List.getElem?_append_left (by have := hlt hl2; omega)] at hk
              exact hk
          · simp only [Ev.before.injEq] at hl2
            exact absurd hl2.1.symm hij
      · intro k i tol hk
        rw [getElem?_snoc] at hk
        rcases hk with hk | ⟨rfl, -⟩
        · exact k1 k i tol hk
        · rw [egBefore_snoc _ _ (le_refl _)]
          simp only [StepSt.next]
          rw [hend]
          refine ⟨fun hn => by rw [hstart.1 hn], fun he => ?_⟩
          obtain ⟨h, h1, h2⟩ := hstart.2 he
          refine ⟨h, ?_, by rw [h2]⟩
          have hpos : 0 < log.length := by
            obtain ⟨k', _, _, hk', -⟩ := he
            omega
          rw [List.getElem?_append_left (by omega)]
          exact h1
      · intro k i x hk k' hl
        rw [getElem?_snoc] at hk
        rcases hk with hk | ⟨-, hk⟩
        · exact k2 k i x hk k' hl
        · cases hk
    | endgame j y =>
      obtain ⟨k1, k2⟩ := keep (T.saved j)
      refine ⟨⟨?_, ?_, ?_, ?_, ?_⟩, ?_, ?_⟩ <;> simp only [steps_snoc, hT]
      · simp [StepSt.next, c1]
      · simp [StepSt.next, c2]
      · simp only [StepSt.next, List.length_append, List.length_singleton, true_iff]
        exact ⟨log.length, j, y, by omega, by rw [getElem?_snoc]; exact Or.inr ⟨rfl, rfl⟩⟩
      · intro k h hk hl
        simp only [List.length_append, List.length_singleton] at hl
        have hkl : k = log.length := by omega
        subst hkl
        simp only [StepSt.next] at hk ⊢
        rw [hend] at hk
        simp only [Option.some.injEq] at hk
        rw [hk, c1]
      · intro i k h hl hk
        simp only [StepSt.next] at hk ⊢
        obtain ⟨hl1, ⟨tol, hl2⟩, hl3⟩ := hl
        simp only [List.length_append, List.length_singleton] at hl1 hl3
        rw [getElem?_snoc] at hl2
        rcases hl2 with hl2 | ⟨-, hl2⟩
        · refine c5 i k h ⟨hlt hl2, ⟨tol, hl2⟩, fun k' t' hk' hh => hl3 k' t' (by omega) ?_⟩ ?_
          · rw [getElem?_snoc]; exact Or.inl hh
          · rw [List.getElem?_append_left (by have := hlt hl2; omega)] at hk
            exact hk
        · cases hl2
      · intro k i tol hk
        rw [getElem?_snoc] at hk
        rcases hk with hk | ⟨-, hk⟩
        · exact k1 k i tol hk
        · cases hk
      · intro k i x hk k' hl
        rw [getElem?_snoc] at hk
        rcases hk with hk | ⟨rfl, hk⟩
        · exact k2 k i x hk k' hl
        · simp only [Ev.endgame.injEq] at hk
          obtain ⟨rfl, -⟩ := hk
          rw [lastRun_snoc _ _ (le_refl _)] at hl
          obtain ⟨h, hh⟩ : ∃ h, T.starts[k']? = some h := ⟨_, List.getElem?_eq_getElem (by have := hl.1; omega)⟩
          refine ⟨h, ?_, ?_⟩
          · simp only [StepSt.next]
            rw [List.getElem?_append_left (by have := hl.1; omega)]
            exact hh
          · simp only [StepSt.next]
            rw [hend, c5 j k' h hl hh]

/-- C138 exactly: after any number of calls of `Solve`, tracking from the start used the initial step size of the settings if
no endgame had been run before with this solver, and otherwise the step size left by the previous call; every endgame run
used the step size with which the path had arrived at the boundary.  Missing from the full claim: paths tracked after an
endgame run, that is, all paths of a second `Solve`. -/
theorem C138_partial {N : ℕ} (ini : ℕ → ℝ) (fin : ℕ → ℝ → ℝ) (s : ZSt d) (_hr : Reach N s) :
    StartsOk ini fin s.log (steps ini fin s.log).starts :=
  (steps_inv ini fin s.log).2

/-- In the first `Solve` all paths are tracked from the start with the initial step size, also when they are tracked again
because of crossed paths. -/
theorem C138_first {N : ℕ} (E : ZEnv d) (cfg : ZCfg) (ini : ℕ → ℝ) (fin : ℕ → ℝ → ℝ) (k i : ℕ) (tol : ℝ)
    (hk : (solve N E cfg (ZSt.init d)).log[k]? = some (Ev.before i tol)) :
    (steps ini fin (solve N E cfg (ZSt.init d)).log).starts[k]? = some (ini k) := by
  refine ((C138_partial (N := N) ini fin _ (Reach.solve E cfg _ Reach.init)).1 k i tol hk).1 ?_
  obtain ⟨s', rounds, e, h2, h3, h4, -⟩ := C56 (N := N) E cfg (ZSt.init d) Reach.init
  rw [e] at hk ⊢
  have hlog : s'.log = (((List.range N).map fun j => Ev.before j cfg.newtonBefore) ++
      retracks cfg.shrink cfg.newtonBefore rounds) ++ (List.range N).filterMap (egEvent s'.bdry) := by
    rw [h4]
    simp [ZSt.init]
  have hA : ∀ ev ∈ ((List.range N).map fun j => (Ev.before j cfg.newtonBefore : Ev d)) ++
      retracks cfg.shrink cfg.newtonBefore rounds, ∃ j t, ev = Ev.before j t := by
    intro ev hev
    rcases List.mem_append.1 hev with hev | hev
    · obtain ⟨j, -, rfl⟩ := List.mem_map.1 hev
      exact ⟨j, _, rfl⟩
    · exact retracks_before ev hev
  rw [hlog] at hk ⊢
  generalize ((List.range N).map fun j => (Ev.before j cfg.newtonBefore : Ev d)) ++
      retracks cfg.shrink cfg.newtonBefore rounds = A at hk hA ⊢
  have hkA : k < A.length := by
    by_contra hge
    rw [List.getElem?_append_right (by omega)] at hk
    obtain ⟨j, -, hj⟩ := List.mem_filterMap.1 (List.mem_of_getElem? hk)
    unfold egEvent at hj
    split at hj
    · split_ifs at hj
      cases hj
    · cases hj
  rintro ⟨k', j, x, h1, h2⟩
  rw [List.getElem?_append_left (by omega)] at h2
  obtain ⟨_, _, hh⟩ := hA _ (List.mem_of_getElem? h2)
  cases hh

/-- C138 in full fails: in a second `Solve` the first path starts with the step size left by the last endgame run. -/
theorem C138_refuted : ¬ C138_full := by
  intro h
  have hr1 := Reach.solve (meetEnv .success) zcfgD (ZSt.init 1) (Reach.init (N := 2))
  have hr2 := Reach.solve (meetEnv .success) zcfgD _ hr1
  obtain ⟨s1, rounds1, e1, -, -, g1, -, -, -, hall⟩ := C56 (N := 2) (meetEnv .success) zcfgD (ZSt.init 1) Reach.init
  obtain ⟨s2, rounds2, e2, -, -, g2, -⟩ := C56 (N := 2) (meetEnv .success) zcfgD _ hr1
  rw [e2] at hr2
  rw [e1] at g2
  have hk : s2.log[s1.log.length]? = some (Ev.before 0 zcfgD.newtonBefore) := by
    rw [g2, List.append_assoc, List.append_assoc, List.getElem?_append_right (le_refl _), Nat.sub_self]
    rfl
  have heg : EgBefore s2.log s1.log.length := by
    obtain ⟨m, b, x, h1, h2, -, -, -, ⟨_, _, h6⟩, -⟩ := hall 0 (by norm_num)
    have hm : Ev.endgame 0 b.pt ∈ s1.log := by
      rw [g1]
      refine List.mem_append_right _ (List.mem_filterMap.2 ⟨0, by simp, ?_⟩)
      unfold egEvent
      rw [h2]
      have : b.code = .success := (congrArg Prod.fst h6).symm
      simp [this]
    obtain ⟨k', hk'⟩ := List.mem_iff_getElem?.1 hm
    have hlt := (List.getElem?_eq_some_iff.1 hk').1
    refine ⟨k', 0, b.pt, hlt, ?_⟩
    rw [g2, List.append_assoc, List.append_assoc, List.getElem?_append_left hlt]
    exact hk'
  have ha := h 1 2 (fun _ => 1) (fun _ _ => 0) s2 hr2 s1.log.length 0 _ hk
  obtain ⟨_, -, hb⟩ := ((C138_partial (fun _ => 1) (fun _ _ => 0) s2 hr2).1 _ _ _ hk).2 heg
  rw [ha] at hb
  simp at hb

/-- `C138_first` is not vacuous: the first path is tracked first. -/
example (ini : ℕ → ℝ) (fin : ℕ → ℝ → ℝ) :
    (steps ini fin (solve 2 (meetEnv .success) zcfgD (ZSt.init 1)).log).starts[0]? = some (ini 0) := by
  refine C138_first (N := 2) (meetEnv .success) zcfgD ini fin 0 0 zcfgD.newtonBefore ?_
  obtain ⟨s1, rounds1, e1, -, -, g1, -⟩ := C56 (N := 2) (meetEnv .success) zcfgD (ZSt.init 1) Reach.init
  rw [e1, g1]
  rfl

end B2.Alg.Md
