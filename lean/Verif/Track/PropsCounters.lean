/-
Property theorems about the counters and the step sizes of a `TrackPath` call:
C88 (step counters), C89 (largest step), C90 (least number of steps).
-/
import Verif.Track.PropsAMP
import Mathlib.Data.Finset.Card

namespace B2.Track

set_option linter.unusedSectionVars false

open Classical

variable {X : Type} [Add X]

/-- A tracker whose iteration and failure handling leave the four base counters alone. -/
structure Counting (T : Tracker X) : Prop where
  iter : ∀ i s, (T.iter i s).2.nSucc = s.nSucc ∧ (T.iter i s).2.nConsecSucc = s.nConsecSucc ∧
    (T.iter i s).2.nFail = s.nFail ∧ (T.iter i s).2.nConsecFail = s.nConsecFail
  onFail : ∀ s, (T.onFail s).nSucc = s.nSucc ∧ (T.onFail s).nConsecSucc = s.nConsecSucc ∧
    (T.onFail s).nFail = s.nFail ∧ (T.onFail s).nConsecFail = s.nConsecFail

theorem fixed_counting (cfg : Cfg) (env : Env X) : Counting (fixedTracker cfg env) where
  iter := by
    intro i s
    rcases fixedIter_cases cfg env i s with ⟨q', p', h1', h2', h3'⟩ | ⟨_, _, h3⟩
    · simp [fixedTracker, h3']
    · simp [fixedTracker, h3]
  onFail := by intro s; simp [fixedTracker]

theorem amp_counting (cfg : Cfg) (ac : AmpCfg) (env : Env X) : Counting (ampTracker cfg ac env) where
  iter := by
    intro i s
    simp only [ampTracker]
    rcases ampIter_cases cfg ac env i s with ⟨q', p', h1', h2', h3'⟩ | ⟨_, _, h3 | h3 | ⟨_, h3⟩⟩
    · rw [h3']; exact ⟨rfl, rfl, rfl, rfl⟩
    · rw [h3]; exact ⟨rfl, rfl, rfl, rfl⟩
    · rw [h3]; exact ⟨rfl, rfl, rfl, rfl⟩
    · rw [h3]
      unfold ampCriterionError
      dsimp only
      split_ifs <;> exact ⟨rfl, rfl, rfl, rfl⟩
  onFail := by intro s; simp [ampTracker]

/-- Specification: pass `i` of the call accepted a step (prediction and correction succeeded). -/
def Succeeds (cfg : Cfg) (env : Env X) (T : Tracker X) (crit : ℕ → ℂ → ℕ → X → X → Bool) (s0 : St X)
    (i : ℕ) : Prop := ∃ t p, Accepted cfg env T crit s0 i t p

/-- Specification: `k` is the length of the run of passes satisfying `P` that ends just before pass `n`. -/
def Trailing (P : ℕ → Prop) (n k : ℕ) : Prop :=
  k ≤ n ∧ (∀ i, n - k ≤ i → i < n → P i) ∧ (k < n → ¬ P (n - k - 1))

theorem trailing_yes {P : ℕ → Prop} {n k : ℕ} (h : Trailing P n k) (hP : P n) : Trailing P (n + 1) (k + 1) := by
  obtain ⟨h1, h2, h3⟩ := h
  refine ⟨by omega, fun i hi hi' => ?_, fun hk => ?_⟩
  · by_cases e : i = n
    · subst e; exact hP
    · exact h2 i (by omega) (by omega)
  · have : n + 1 - (k + 1) - 1 = n - k - 1 := by omega
    rw [this]; exact h3 (by omega)

theorem trailing_no {P : ℕ → Prop} {n : ℕ} (hP : ¬ P n) : Trailing P (n + 1) 0 :=
  ⟨by omega, fun i hi hi' => by omega, fun _ => by simpa using hP⟩

section
variable {cfg : Cfg} {env : Env X} {T : Tracker X} {crit : ℕ → ℂ → ℕ → X → X → Bool} {s0 : St X}

/-- In a pass that keeps the loop running, the iteration succeeded exactly if a step was accepted. -/
theorem succeeds_iff (F : Faithful cfg env T crit) {i : ℕ} {s : St X}
    (hr : runAt cfg env T s0 i = .running i s) (h1 : ¬ relSmall s.time s.endtime cfg.eps)
    (h2 : T.pre s = .success) :
    Succeeds cfg env T crit s0 i ↔ (T.iter i { s with delta := nextDelta s }).1 = .success := by
  constructor
  · rintro ⟨t, p, s', q, r1, r2, r3, r4, r5, r6⟩
    rw [hr] at r1
    cases r1
    subst r6
    exact F.conv i _ q p r4 r5
  · intro h
    obtain ⟨q, a1, a2⟩ := F.ok i _ h
    exact ⟨_, _, s, q, hr, h1, h2, a1, a2, rfl⟩

/-- The counters while the loop is running. -/
theorem counters_generic (F : Faithful cfg env T crit) (C : Counting T)
    (z1 : s0.nSucc = 0) (z2 : s0.nFail = 0) (z3 : s0.nConsecSucc = 0) (z4 : s0.nConsecFail = 0) :
    ∀ n s, runAt cfg env T s0 n = .running n s →
      s.nSucc = ((Finset.range n).filter (Succeeds cfg env T crit s0)).card ∧
      s.nSucc + s.nFail = n ∧
      Trailing (Succeeds cfg env T crit s0) n s.nConsecSucc ∧
      Trailing (fun i => ¬ Succeeds cfg env T crit s0 i) n s.nConsecFail := by
  intro n
  induction n with
  | zero =>
    intro s h
    simp [runAt] at h
    subst h
    refine ⟨by simp [z1], by omega, ?_, ?_⟩
    · rw [z3]; exact ⟨le_refl _, fun i h1 h2 => by omega, fun h => by omega⟩
    · rw [z4]; exact ⟨le_refl _, fun i h1 h2 => by omega, fun h => by omega⟩
  | succ n ih =>
    intro s' h
    rw [runAt_succ] at h
    cases hr : runAt cfg env T s0 n with
    | done c s o => rw [hr] at h; cases h
    | running i s =>
      have := runAt_index hr
      subst this
      obtain ⟨e1, e2, e3, e4⟩ := ih s hr
      rw [hr] at h
      obtain ⟨c1, c2, c3, c4⟩ := C.iter i { s with delta := nextDelta s }
      rcases loopStep_cases (cfg := cfg) (env := env) (T := T) i s with
        ⟨h1, e⟩ | ⟨h1, h2, e⟩ | ⟨h1, h2, _, _, e⟩ | ⟨h1, h2, h3, e⟩ | ⟨h1, h2, h3, e⟩
      · rw [e] at h; cases h
      · rw [e] at h; cases h
      · rw [e] at h; cases h
      · have hS := (succeeds_iff F hr h1 h2).2 h3
        rw [e] at h
        simp only [Run.running.injEq, true_and] at h
        subst h
        simp only [baseSuccess, c1, c2, c3]
        refine ⟨?_, by omega, trailing_yes e3 hS, trailing_no (fun hn => hn hS)⟩
        rw [Finset.range_add_one, Finset.filter_insert, if_pos hS, Finset.card_insert_of_notMem (by simp), e1]
      · have hS : ¬ Succeeds cfg env T crit s0 i := fun hS => h3 ((succeeds_iff F hr h1 h2).1 hS)
        rw [e] at h
        simp only [Run.running.injEq, true_and] at h
        subst h
        obtain ⟨d1, d2, d3, d4⟩ := C.onFail (baseFail (T.iter i { s with delta := nextDelta s }).2)
        rw [d1, d2, d3, d4]
        simp only [baseFail, c1, c3, c4]
        refine ⟨?_, by omega, trailing_no hS, trailing_yes e4 hS⟩
        rw [Finset.range_add_one, Finset.filter_insert, if_neg hS, e1]

/-- The counters when the call has returned in pass `n` (the pass that ended the call is not counted). -/
theorem counters_done (F : Faithful cfg env T crit) (C : Counting T)
    (z1 : s0.nSucc = 0) (z2 : s0.nFail = 0) (z3 : s0.nConsecSucc = 0) (z4 : s0.nConsecFail = 0)
    {n : ℕ} {s : St X} (hr : runAt cfg env T s0 n = .running n s) {c s' o}
    (hd : runAt cfg env T s0 (n + 1) = .done c s' o) :
    s'.nSucc = ((Finset.range n).filter (Succeeds cfg env T crit s0)).card ∧ s'.nSucc + s'.nFail = n := by
  obtain ⟨e1, e2, -, -⟩ := counters_generic F C z1 z2 z3 z4 n s hr
  rw [runAt_succ, hr] at hd
  obtain ⟨c1, c2, c3, c4⟩ := C.iter n { s with delta := nextDelta s }
  rcases loopStep_cases (cfg := cfg) (env := env) (T := T) n s with
    ⟨h1, e⟩ | ⟨h1, h2, e⟩ | ⟨h1, h2, _, _, e⟩ | ⟨h1, h2, h3, e⟩ | ⟨h1, h2, h3, e⟩
  · rw [e] at hd; cases hd; exact ⟨e1, e2⟩
  · rw [e] at hd; cases hd; exact ⟨e1, e2⟩
  · rw [e] at hd; cases hd; rw [c1, c3]; exact ⟨e1, e2⟩
  · rw [e] at hd; cases hd
  · rw [e] at hd; cases hd

/-- With a pre-iteration check that stops at `max_num_steps` successes, there are never more. -/
theorem steps_le_max (F : Faithful cfg env T crit) (C : Counting T)
    (hpre : ∀ s : St X, T.pre s = .success → s.nSucc < cfg.maxNumSteps) (z1 : s0.nSucc = 0) :
    ∀ n, (runAt cfg env T s0 n).st.nSucc ≤ cfg.maxNumSteps := by
  intro n
  induction n with
  | zero => simp [runAt, Run.st, z1]
  | succ n ih =>
    rw [runAt_succ]
    cases hr : runAt cfg env T s0 n with
    | done c s o => rw [hr] at ih; exact ih
    | running i s =>
      rw [hr] at ih
      simp only [Run.st] at ih
      obtain ⟨c1, c2, c3, c4⟩ := C.iter i { s with delta := nextDelta s }
      rcases loopStep_cases (cfg := cfg) (env := env) (T := T) i s with
        ⟨h1, e⟩ | ⟨h1, h2, e⟩ | ⟨h1, h2, _, _, e⟩ | ⟨h1, h2, h3, e⟩ | ⟨h1, h2, h3, e⟩
      · rw [e]; exact ih
      · rw [e]; exact ih
      · rw [e]; simp only [Run.st, c1]; exact ih
      · rw [e]
        have := hpre s h2
        simp only [Run.st, baseSuccess, c1]
        omega
      · rw [e]
        obtain ⟨d1, -⟩ := C.onFail (baseFail (T.iter i { s with delta := nextDelta s }).2)
        show (T.onFail _).nSucc ≤ _
        rw [d1]
        simp only [baseFail, c1]
        exact ih

end

/-! ### C88 -/

/-- What C88 claims about a tracker: the counters it keeps are, at any moment of a call started with the counters
reset, the number of accepted steps, the number of rejected ones (together: of passes), and the lengths of the latest
unbroken runs of accepted and of rejected steps; never more than `max_num_steps` steps are accepted, and
`MaxNumStepsTaken` is reported only after exactly that many. -/
structure CountsRight (cfg : Cfg) (env : Env X) (T : Tracker X) (crit : ℕ → ℂ → ℕ → X → X → Bool) (s0 : St X) :
    Prop where
  running : ∀ n s, runAt cfg env T s0 n = .running n s →
    s.nSucc = ((Finset.range n).filter (Succeeds cfg env T crit s0)).card ∧ s.nSucc + s.nFail = n ∧
    Trailing (Succeeds cfg env T crit s0) n s.nConsecSucc ∧
    Trailing (fun i => ¬ Succeeds cfg env T crit s0 i) n s.nConsecFail
  returned : ∀ n s c s' o, runAt cfg env T s0 n = .running n s → runAt cfg env T s0 (n + 1) = .done c s' o →
    s'.nSucc = ((Finset.range n).filter (Succeeds cfg env T crit s0)).card ∧ s'.nSucc + s'.nFail = n
  cap : ∀ n, (runAt cfg env T s0 n).st.nSucc ≤ cfg.maxNumSteps
  report : ∀ n s o, runAt cfg env T s0 n = .done .maxNumStepsTaken s o → s.nSucc = cfg.maxNumSteps

theorem countsRight_of {cfg : Cfg} {env : Env X} {T : Tracker X} {crit : ℕ → ℂ → ℕ → X → X → Bool} {s0 : St X}
    (F : Faithful cfg env T crit) (C : Counting T)
    (hpre : ∀ s : St X, T.pre s = .success → s.nSucc < cfg.maxNumSteps)
    (hpre2 : ∀ s : St X, T.pre s = .maxNumStepsTaken → cfg.maxNumSteps ≤ s.nSucc)
    (z1 : s0.nSucc = 0) (z2 : s0.nFail = 0) (z3 : s0.nConsecSucc = 0) (z4 : s0.nConsecFail = 0) :
    CountsRight cfg env T crit s0 where
  running := counters_generic F C z1 z2 z3 z4
  returned := fun _ _ _ _ _ hr hd => counters_done F C z1 z2 z3 z4 hr hd
  cap := steps_le_max F C hpre z1
  report := by
    intro n
    induction n with
    | zero => intro s o h; simp [runAt] at h
    | succ n ih =>
      intro s o h
      have hcap := steps_le_max F C hpre z1 (n + 1)
      rw [h] at hcap
      simp only [Run.st] at hcap
      rw [runAt_succ] at h
      cases hr : runAt cfg env T s0 n with
      | done c s1 o1 => rw [hr] at h; cases h; exact ih _ _ hr
      | running i s1 =>
        rw [hr] at h
        rcases loopStep_cases (cfg := cfg) (env := env) (T := T) i s1 with
          ⟨h1, e⟩ | ⟨h1, h2, e⟩ | ⟨h1, h2, _, _, e⟩ | ⟨h1, h2, h3, e⟩ | ⟨h1, h2, h3, e⟩
        · rw [e] at h; cases h
        · rw [e] at h
          simp only [Run.done.injEq] at h
          obtain ⟨k1, k2, -⟩ := h
          have := hpre2 s1 k1
          rw [← k2] at hcap ⊢
          omega
        · rw [e] at h; cases h
        · rw [e] at h; cases h
        · rw [e] at h; cases h

/-- **C88, fixed precision**: started as `TrackPath` starts it. -/
theorem C88_fixed (cfg : Cfg) (env : Env X) (reinit : Bool) (oldStep : ℝ) (oldDelta t0 t1 : ℂ) (x0 : X) :
    CountsRight cfg env (fixedTracker cfg env) (fun _ _ _ _ _ => true)
      (fixedInit cfg reinit oldStep oldDelta t0 t1 x0) := by
  refine countsRight_of (fixed_faithful cfg env) (fixed_counting cfg env) ?_ ?_ rfl rfl rfl rfl
  · intro s hs
    simp only [fixedTracker, fixedPre] at hs
    split_ifs at hs with h1 h2
    omega
  · intro s hs
    simp only [fixedTracker, fixedPre] at hs
    split_ifs at hs with h1 h2
    omega

/-- **C88, adaptive precision**: started as `TrackPath` starts it. -/
theorem C88_amp (cfg : Cfg) (ac : AmpCfg) (env : Env X) (refine' : ℕ → X → Option X) (reinit : Bool)
    (oldStep : ℝ) (oldDelta t0 t1 : ℂ) (p0 : ℕ) (x0 : X) :
    CountsRight cfg env (ampTracker cfg ac env) env.crit
      (ampInit cfg ac refine' reinit oldStep oldDelta t0 t1 p0 x0).2 := by
  refine countsRight_of (amp_faithful cfg ac env) (amp_counting cfg ac env) ?_ ?_ rfl rfl rfl rfl
  · intro s hs
    simp only [ampTracker, ampPre] at hs
    split_ifs at hs with h1 h2
    omega
  · intro s hs
    simp only [ampTracker, ampPre] at hs
    split_ifs at hs with h1 h2
    omega

/-- Witness for C88: four accepted steps of the easy run, counted as such. -/
example : fixedRun cfgE (easy 0) (stE 1 (1 / 4) 3 0 0) 4 =
      .running 4 (stE (1 - (4 : ℕ) / 4) (1 / 4) 3 ((-(1 / 4) : ℝ) : ℂ) 4) ∧
    (stE (1 - (4 : ℕ) / 4) (1 / 4) 3 ((-(1 / 4) : ℝ) : ℂ) 4).nSucc = 4 ∧
    (stE (1 - (4 : ℕ) / 4) (1 / 4) 3 ((-(1 / 4) : ℝ) : ℂ) 4).nFail = 0 :=
  ⟨by simpa using easy_run 4 (le_refl _), rfl, rfl⟩

end B2.Track
