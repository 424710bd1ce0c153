/-
Property C175: the notifications of a tracker, and the path collected from them.
-/
import Verif.Track.Events
import Verif.Track.PropsCounters

namespace B2.Track

set_option linter.unusedSectionVars false

open Classical

variable {X : Type} [Add X]

/-! ### Specification -/

/-- The notifications of a call that has not returned yet: each step is announced and then reported, as a success or a
failure. -/
inductive Steps : List EvKind → Prop
  | nil : Steps []
  | success {l} : Steps l → Steps (l ++ [.newStep, .success])
  | fail {l} : Steps l → Steps (l ++ [.newStep, .fail])

/-- The notifications of a call that has returned: after the steps, possibly a truncated one, and then the end. -/
inductive Complete : List EvKind → Prop
  | done {l} : Steps l → Complete (l ++ [.ended])
  | truncated {l} : Steps l → Complete (l ++ [.newStep, .truncated, .ended])

/-- Pass `i` accepted the point `p` for time `t` (prediction and correction succeeded), and the call went on. -/
def Taken (cfg : Cfg) (env : Env X) (T : Tracker X) (crit : ℕ → ℂ → ℕ → X → X → Bool) (s0 : St X)
    (i : ℕ) (t : ℂ) (p : X) : Prop :=
  Accepted cfg env T crit s0 i t p ∧ ∃ s, runAt cfg env T s0 (i + 1) = .running (i + 1) s

/-- **C175** for a tracker: at any moment (after `n` passes) of a call,

* an accumulator that held `path` before the call holds the points taken in passes `0, …, n-1` after it, one for each
  such pass, in order, and nothing else;
* the notification of a success comes with the time and the point of the step;
* as many points were added as the tracker counts successful steps;
* if the call has returned `Success`, the last point added is the solution returned (or no step was taken, and the
  start point is returned);
* steps and notifications correspond, and the end is announced exactly once, last. -/
structure Reports (cfg : Cfg) (env : Env X) (T : Tracker X) (crit : ℕ → ℂ → ℕ → X → X → Bool) (s0 : St X) : Prop where
  path : ∀ (n : ℕ) (path : List X), ∃ l : List (ℕ × ℂ × X),
    accumulate path (log cfg env T s0 n) = path ++ l.map (fun r => r.2.2) ∧
    l.Pairwise (fun a b => a.1 < b.1) ∧
    ∀ i t p, (i, t, p) ∈ l ↔ i < n ∧ Taken cfg env T crit s0 i t p
  seen : ∀ n e, e ∈ log cfg env T s0 n → e.kind = .success →
    ∃ i, i < n ∧ Taken cfg env T crit s0 i e.time e.point
  count : ∀ n, (accumulate [] (log cfg env T s0 n)).length = (runAt cfg env T s0 n).st.nSucc
  last : ∀ n s x, runAt cfg env T s0 n = .done .success s (some x) →
    (accumulate [] (log cfg env T s0 n)).getLast? = some x ∨
      (accumulate [] (log cfg env T s0 n) = [] ∧ x = s0.space)
  shape : ∀ n, match runAt cfg env T s0 n with
    | .running _ _ => Steps ((log cfg env T s0 n).map Event.kind)
    | .done _ _ _ => Complete ((log cfg env T s0 n).map Event.kind)

/-! ### Proof -/

section
variable {cfg : Cfg} {env : Env X} {T : Tracker X} {crit : ℕ → ℂ → ℕ → X → X → Bool} {s0 : St X}

theorem accumulate_append (path : List X) (a b : List (Event X)) :
    accumulate path (a ++ b) = accumulate (accumulate path a) b := by
  simp [accumulate]

/-- The notifications of a pass, by cases. -/
theorem notes_cases (i : ℕ) (s : St X) :
    (relSmall s.time s.endtime cfg.eps ∧ loopStep cfg env T (.running i s) = .done .success s (some s.space) ∧
      notes cfg env T (.running i s) = [seen .ended s]) ∨
    (¬ relSmall s.time s.endtime cfg.eps ∧ T.pre s ≠ .success ∧
      loopStep cfg env T (.running i s) = .done (T.pre s) s none ∧ notes cfg env T (.running i s) = [seen .ended s]) ∨
    (¬ relSmall s.time s.endtime cfg.eps ∧ T.pre s = .success ∧
      loopStep cfg env T (.running i s) = .done .goingToInfinity (T.iter i { s with delta := nextDelta s }).2 none ∧
      notes cfg env T (.running i s) = [seen .newStep s, seen .truncated (T.iter i { s with delta := nextDelta s }).2,
        seen .ended (T.iter i { s with delta := nextDelta s }).2]) ∨
    (¬ relSmall s.time s.endtime cfg.eps ∧ T.pre s = .success ∧
      (T.iter i { s with delta := nextDelta s }).1 = .success ∧
      loopStep cfg env T (.running i s) = .running (i + 1) (baseSuccess (T.iter i { s with delta := nextDelta s }).2) ∧
      notes cfg env T (.running i s) = [seen .newStep s,
        seen .success (baseSuccess (T.iter i { s with delta := nextDelta s }).2)]) ∨
    (¬ relSmall s.time s.endtime cfg.eps ∧ T.pre s = .success ∧
      (T.iter i { s with delta := nextDelta s }).1 ≠ .success ∧
      loopStep cfg env T (.running i s) =
        .running (i + 1) (T.onFail (baseFail (T.iter i { s with delta := nextDelta s }).2)) ∧
      notes cfg env T (.running i s) = [seen .newStep s,
        seen .fail (T.onFail (baseFail (T.iter i { s with delta := nextDelta s }).2))]) := by
  simp only [notes, loopStep]
  by_cases h1 : relSmall s.time s.endtime cfg.eps
  · left; simp [h1]
  right
  by_cases h2 : T.pre s = .success
  swap
  · left; simp [h1, h2]
  right
  by_cases h3 : cfg.truncate = true ∧ cfg.threshold < env.size (T.iter i { s with delta := nextDelta s }).2.space
  · left
    rw [if_neg h1, if_neg h1, if_neg (not_not.2 h2), if_neg (not_not.2 h2), if_pos h3, if_pos h3]
    exact ⟨h1, h2, rfl, rfl⟩
  right
  by_cases h4 : (T.iter i { s with delta := nextDelta s }).1 = .success
  · left
    rw [if_neg h1, if_neg h1, if_neg (not_not.2 h2), if_neg (not_not.2 h2), if_neg h3, if_neg h3, if_pos h4, if_pos h4]
    exact ⟨h1, h2, h4, rfl, rfl⟩
  · right
    rw [if_neg h1, if_neg h1, if_neg (not_not.2 h2), if_neg (not_not.2 h2), if_neg h3, if_neg h3, if_neg h4, if_neg h4]
    exact ⟨h1, h2, h4, rfl, rfl⟩

theorem accepted_fun {i : ℕ} {t t' : ℂ} {p p' : X} (h : Accepted cfg env T crit s0 i t p)
    (h' : Accepted cfg env T crit s0 i t' p') : t = t' ∧ p = p' := by
  obtain ⟨s, q, a1, -, -, a4, a5, a6⟩ := h
  obtain ⟨s', q', b1, -, -, b4, b5, b6⟩ := h'
  rw [a1] at b1
  cases b1
  rw [a4] at b4
  cases b4
  subst a6 b6
  rw [a5] at b5
  cases b5
  exact ⟨rfl, rfl⟩

/-- A pass that takes a step. -/
theorem taken_iff (F : Faithful cfg env T crit) {i : ℕ} {s : St X} (hr : runAt cfg env T s0 i = .running i s)
    (t : ℂ) (p : X) :
    Taken cfg env T crit s0 i t p ↔ ¬ relSmall s.time s.endtime cfg.eps ∧ T.pre s = .success ∧
      (T.iter i { s with delta := nextDelta s }).1 = .success ∧
      loopStep cfg env T (.running i s) = .running (i + 1) (baseSuccess (T.iter i { s with delta := nextDelta s }).2) ∧
      t = s.time + nextDelta s ∧ p = (T.iter i { s with delta := nextDelta s }).2.space := by
  constructor
  · rintro ⟨⟨s', q, a1, a2, a3, a4, a5, a6⟩, s2, hs⟩
    rw [hr] at a1
    cases a1
    rw [runAt_succ, hr] at hs
    subst a6
    have h3 := F.conv i { s with delta := nextDelta s } q p a4 a5
    obtain ⟨q', b4, b5⟩ := F.ok i _ h3
    have b4' : env.predict i s.space s.time (nextDelta s) = .ok q' := b4
    rw [a4] at b4'
    cases b4'
    have e := b5.symm.trans a5
    refine ⟨a2, a3, h3, ?_, rfl, (congrArg Prod.snd e).symm⟩
    rcases notes_cases (cfg := cfg) (env := env) (T := T) i s with
      ⟨_, e, _⟩ | ⟨_, _, e, _⟩ | ⟨_, _, e, _⟩ | ⟨_, _, _, e, _⟩ | ⟨_, _, h, e, _⟩
    · rw [e] at hs; cases hs
    · rw [e] at hs; cases hs
    · rw [e] at hs; cases hs
    · exact e
    · exact absurd h3 h
  · rintro ⟨a2, a3, h3, e, rfl, rfl⟩
    obtain ⟨q, b4, b5⟩ := F.ok i _ h3
    exact ⟨⟨s, q, hr, a2, a3, b4, b5, rfl⟩, _, by rw [runAt_succ, hr, e]⟩

/-- What the notifications of pass `n` say. -/
theorem notes_taken (F : Faithful cfg env T crit) (n : ℕ) :
    ((∃ t p, Taken cfg env T crit s0 n t p ∧ (∀ path, accumulate path (notes cfg env T (runAt cfg env T s0 n)) = path ++ [p]) ∧
      ∀ e ∈ notes cfg env T (runAt cfg env T s0 n), e.kind = .success → e.time = t ∧ e.point = p)) ∨
    ((∀ t p, ¬ Taken cfg env T crit s0 n t p) ∧
      (∀ path, accumulate path (notes cfg env T (runAt cfg env T s0 n)) = path) ∧
      ∀ e ∈ notes cfg env T (runAt cfg env T s0 n), e.kind ≠ .success) := by
  cases hr : runAt cfg env T s0 n with
  | done c s o =>
    right
    refine ⟨fun t p h => ?_, fun path => rfl, fun e he => by cases he⟩
    obtain ⟨⟨s', q, a1, _⟩, _⟩ := h
    rw [hr] at a1
    cases a1
  | running i s =>
    have := runAt_index hr
    subst this
    obtain ⟨t1, t2, t3⟩ := F.times i { s with delta := nextDelta s }
    rcases notes_cases (cfg := cfg) (env := env) (T := T) i s with
      ⟨h1, e, f⟩ | ⟨h1, h2, e, f⟩ | ⟨h1, h2, e, f⟩ | ⟨h1, h2, h3, e, f⟩ | ⟨h1, h2, h3, e, f⟩
    · right
      refine ⟨fun t p h => ((taken_iff F hr t p).1 h).1 h1, fun path => by rw [f]; rfl, fun e he => ?_⟩
      rw [f] at he
      simp only [List.mem_singleton] at he
      subst he
      simp [B2.Track.seen]
    · right
      refine ⟨fun t p h => h2 ((taken_iff F hr t p).1 h).2.1, fun path => by rw [f]; rfl, fun e he => ?_⟩
      rw [f] at he
      simp only [List.mem_singleton] at he
      subst he
      simp [B2.Track.seen]
    · right
      refine ⟨fun t p h => ?_, fun path => by rw [f]; rfl, fun e he => ?_⟩
      · have := ((taken_iff F hr t p).1 h).2.2.2.1
        rw [e] at this
        cases this
      · rw [f] at he
        simp only [List.mem_cons, List.not_mem_nil, or_false] at he
        rcases he with rfl | rfl | rfl <;> simp [B2.Track.seen]
    · left
      refine ⟨_, _, (taken_iff F hr _ _).2 ⟨h1, h2, h3, e, rfl, rfl⟩, fun path => by rw [f]; rfl, fun e he hk => ?_⟩
      rw [f] at he
      simp only [List.mem_cons, List.not_mem_nil, or_false] at he
      rcases he with rfl | rfl
      · cases hk
      · refine ⟨?_, rfl⟩
        simp only [B2.Track.seen, baseSuccess]
        rw [t1, t3]
    · right
      refine ⟨fun t p h => h3 ((taken_iff F hr t p).1 h).2.2.1, fun path => by rw [f]; rfl, fun e he => ?_⟩
      rw [f] at he
      simp only [List.mem_cons, List.not_mem_nil, or_false] at he
      rcases he with rfl | rfl <;> simp [B2.Track.seen]

theorem reports_path (F : Faithful cfg env T crit) (path : List X) (n : ℕ) : ∃ l : List (ℕ × ℂ × X),
    accumulate path (log cfg env T s0 n) = path ++ l.map (fun r => r.2.2) ∧
    l.Pairwise (fun a b => a.1 < b.1) ∧ ∀ i t p, (i, t, p) ∈ l ↔ i < n ∧ Taken cfg env T crit s0 i t p := by
  induction n with
  | zero => exact ⟨[], by simp [accumulate, log], List.Pairwise.nil, by simp⟩
  | succ n ih =>
    obtain ⟨l, h1, h2, h3⟩ := ih
    rcases notes_taken (s0 := s0) F n with ⟨t, p, ht, hp, -⟩ | ⟨ht, hp, -⟩
    · refine ⟨l ++ [(n, t, p)], ?_, ?_, fun i t' p' => ?_⟩
      · rw [log, accumulate_append, h1, hp]
        simp
      · rw [List.pairwise_append]
        refine ⟨h2, List.pairwise_singleton _ _, fun a ha b hb => ?_⟩
        simp only [List.mem_singleton] at hb
        subst hb
        exact ((h3 a.1 a.2.1 a.2.2).1 ha).1
      · rw [List.mem_append, h3, List.mem_singleton]
        constructor
        · rintro (⟨a, b⟩ | e)
          · exact ⟨by omega, b⟩
          · cases e; exact ⟨by omega, ht⟩
        · rintro ⟨a, b⟩
          by_cases e : i = n
          · subst e
            obtain ⟨rfl, rfl⟩ := accepted_fun ht.1 b.1
            exact Or.inr rfl
          · exact Or.inl ⟨by omega, b⟩
    · refine ⟨l, ?_, h2, fun i t' p' => ?_⟩
      · rw [log, accumulate_append, h1, hp]
      · rw [h3]
        constructor
        · rintro ⟨a, b⟩; exact ⟨by omega, b⟩
        · rintro ⟨a, b⟩
          refine ⟨?_, b⟩
          by_contra hn
          obtain rfl : i = n := by omega
          exact ht _ _ b

theorem reports_seen (F : Faithful cfg env T crit) (n : ℕ) : ∀ e, e ∈ log cfg env T s0 n → e.kind = .success →
    ∃ i, i < n ∧ Taken cfg env T crit s0 i e.time e.point := by
  induction n with
  | zero => intro e he; cases he
  | succ n ih =>
    intro e he hk
    rw [log, List.mem_append] at he
    rcases he with he | he
    · obtain ⟨i, hi, h⟩ := ih e he hk
      exact ⟨i, by omega, h⟩
    · rcases notes_taken (s0 := s0) F n with ⟨t, p, ht, -, hs⟩ | ⟨-, -, hs⟩
      · obtain ⟨rfl, rfl⟩ := hs e he hk
        exact ⟨n, by omega, ht⟩
      · exact absurd hk (hs e he)

theorem reports_count (F : Faithful cfg env T crit) (C : Counting T) (z : s0.nSucc = 0) (n : ℕ) :
    (accumulate [] (log cfg env T s0 n)).length = (runAt cfg env T s0 n).st.nSucc ∧
    ((accumulate [] (log cfg env T s0 n)).getLast? = some (runAt cfg env T s0 n).st.space ∨
      (accumulate [] (log cfg env T s0 n) = [] ∧ (runAt cfg env T s0 n).st.space = s0.space) ∨
      ∃ s, runAt cfg env T s0 n = .done .goingToInfinity s none) := by
  induction n with
  | zero => simp [log, accumulate, runAt, Run.st, z]
  | succ n ih =>
    rw [log, accumulate_append, runAt_succ]
    cases hr : runAt cfg env T s0 n with
    | done c s o =>
      rw [hr] at ih
      exact ih
    | running i s =>
      rw [hr] at ih
      obtain ⟨ih1, ih2⟩ := ih
      simp only [reduceCtorEq, exists_false, or_false] at ih2
      obtain ⟨c1, -⟩ := C.iter i { s with delta := nextDelta s }
      rcases notes_cases (cfg := cfg) (env := env) (T := T) i s with
        ⟨h1, e, f⟩ | ⟨h1, h2, e, f⟩ | ⟨h1, h2, e, f⟩ | ⟨h1, h2, h3, e, f⟩ | ⟨h1, h2, h3, e, f⟩
      · rw [e, f]
        exact ⟨ih1, ih2.elim Or.inl fun h => Or.inr (Or.inl h)⟩
      · rw [e, f]
        exact ⟨ih1, ih2.elim Or.inl fun h => Or.inr (Or.inl h)⟩
      · rw [e, f]
        refine ⟨?_, Or.inr (Or.inr ⟨_, rfl⟩)⟩
        simp only [Run.st]
        rw [c1]
        exact ih1
      · rw [e, f]
        constructor
        · show (accumulate [] (log cfg env T s0 n) ++ [_]).length = _
          rw [List.length_append, ih1]
          simp only [Run.st, baseSuccess, c1, List.length_singleton]
        · left
          show (accumulate [] (log cfg env T s0 n) ++ [_]).getLast? = _
          rw [List.getLast?_append]
          rfl
      · rw [e, f]
        obtain ⟨d1, -⟩ := C.onFail (baseFail (T.iter i { s with delta := nextDelta s }).2)
        obtain ⟨-, -, d2⟩ := F.onFail (baseFail (T.iter i { s with delta := nextDelta s }).2)
        have d3 := F.bad i _ h3
        have d4 : (T.onFail (baseFail (T.iter i { s with delta := nextDelta s }).2)).space = s.space := d2.trans d3
        have d5 : (T.onFail (baseFail (T.iter i { s with delta := nextDelta s }).2)).nSucc = s.nSucc := d1.trans c1
        simp only [Run.st] at ih1 ih2 ⊢
        rw [d4, d5]
        exact ⟨ih1, ih2.elim Or.inl fun h => Or.inr (Or.inl h)⟩

theorem done_out (n : ℕ) : ∀ c s x, runAt cfg env T s0 n = .done c s (some x) → x = s.space := by
  induction n with
  | zero => intro c s x h; simp [runAt] at h
  | succ n ih =>
    intro c s' x h
    rw [runAt_succ] at h
    cases hr : runAt cfg env T s0 n with
    | done c1 s1 o1 => rw [hr] at h; exact ih _ _ _ (hr.trans h)
    | running i s =>
      rw [hr] at h
      rcases notes_cases (cfg := cfg) (env := env) (T := T) i s with
        ⟨h1, e, f⟩ | ⟨h1, h2, e, f⟩ | ⟨h1, h2, e, f⟩ | ⟨h1, h2, h3, e, f⟩ | ⟨h1, h2, h3, e, f⟩
      all_goals (rw [e] at h; cases h)
      rfl

theorem reports_shape (n : ℕ) : match runAt cfg env T s0 n with
    | .running _ _ => Steps ((log cfg env T s0 n).map Event.kind)
    | .done _ _ _ => Complete ((log cfg env T s0 n).map Event.kind) := by
  induction n with
  | zero => exact Steps.nil
  | succ n ih =>
    rw [log, runAt_succ, List.map_append]
    cases hr : runAt cfg env T s0 n with
    | done c s o =>
      rw [hr] at ih
      simp only [loopStep, notes, List.map_nil, List.append_nil]
      exact ih
    | running i s =>
      rw [hr] at ih
      simp only at ih
      rcases notes_cases (cfg := cfg) (env := env) (T := T) i s with
        ⟨h1, e, f⟩ | ⟨h1, h2, e, f⟩ | ⟨h1, h2, e, f⟩ | ⟨h1, h2, h3, e, f⟩ | ⟨h1, h2, h3, e, f⟩
      · rw [e, f]; exact Complete.done ih
      · rw [e, f]; exact Complete.done ih
      · rw [e, f]; exact Complete.truncated ih
      · rw [e, f]; exact Steps.success ih
      · rw [e, f]; exact Steps.fail ih

theorem reports_of (F : Faithful cfg env T crit) (C : Counting T) (z : s0.nSucc = 0) : Reports cfg env T crit s0 where
  path := fun n path => reports_path F path n
  seen := reports_seen F
  count := fun n => (reports_count F C z n).1
  last := by
    intro n s x h
    obtain rfl := done_out n _ _ _ h
    have := (reports_count F C z n).2
    rw [h] at this
    simp only [Run.st, Run.done.injEq, reduceCtorEq, false_and, exists_false, or_false] at this
    exact this
  shape := reports_shape

end

/-- **C175, fixed precision**. -/
theorem C175_fixed (cfg : Cfg) (env : Env X) (reinit : Bool) (oldStep : ℝ) (oldDelta t0 t1 : ℂ) (x0 : X) :
    Reports cfg env (fixedTracker cfg env) (fun _ _ _ _ _ => true)
      (fixedInit cfg reinit oldStep oldDelta t0 t1 x0) :=
  reports_of (fixed_faithful cfg env) (fixed_counting cfg env) rfl

/-- **C175, adaptive precision**. -/
theorem C175_amp (cfg : Cfg) (ac : AmpCfg) (env : Env X) (refine' : ℕ → X → Option X) (reinit : Bool)
    (oldStep : ℝ) (oldDelta t0 t1 : ℂ) (p0 : ℕ) (x0 : X) :
    Reports cfg env (ampTracker cfg ac env) env.crit
      (ampInit cfg ac refine' reinit oldStep oldDelta t0 t1 p0 x0).2 :=
  reports_of (amp_faithful cfg ac env) (amp_counting cfg ac env) rfl

/-- The run of `easy_run`, from time 1 to 0 in four steps: four points are collected. -/
example : (accumulate [] (log cfgE (easy 0) (fixedTracker cfgE (easy 0)) (stE 1 (1 / 4) 3 0 0) 4)).length = 4 := by
  have h := (reports_of (s0 := stE 1 (1 / 4) 3 0 0) (fixed_faithful cfgE (easy 0)) (fixed_counting cfgE (easy 0)) rfl).count 4
  have e := easy_run 4 (le_refl _)
  unfold fixedRun at e
  rw [h, e]
  rfl

/-- The truncated run of `easy_truncated`: the step is announced, but its point is not collected. -/
example : accumulate [] (log cfgE (easy 10) (fixedTracker cfgE (easy 10)) (stE 1 (1 / 4) 0 0 0) 1) = [] := by
  have h := (reports_of (s0 := stE 1 (1 / 4) 0 0 0) (fixed_faithful cfgE (easy 10)) (fixed_counting cfgE (easy 10)) rfl).count 1
  have e := easy_truncated
  unfold fixedRun at e
  rw [e] at h
  exact List.length_eq_zero_iff.1 h

end B2.Track
