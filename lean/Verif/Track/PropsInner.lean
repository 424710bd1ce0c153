/-
Property C177: the notifications of a step say what happened in it.
-/
import Verif.Track.Inner
import Verif.Track.PropsEvents

namespace B2.Track

set_option linter.unusedSectionVars false

open Classical

variable {X : Type} [Add X]

/-! ### Specification -/

/-- What can happen in a step. -/
inductive Cause (X : Type)
  /-- the first linear solve of the prediction failed -/
  | first
  /-- a later linear solve of the prediction failed -/
  | solve
  /-- the prediction asked for a higher precision -/
  | prec
  /-- predicted `q`; a linear solve of Newton's method failed -/
  | newtonSolve (q : X)
  /-- predicted `q`; Newton's method used all its iterations, all of which could be computed -/
  | newtonSlow (q : X)
  /-- predicted `q`; Newton's method asked for a higher precision -/
  | newtonPrec (q : X)
  /-- predicted `q` and corrected to `p` -/
  | done (q p : X)

/-- `c` happened in step `i` from the state `s`. -/
inductive Happens (cfg : Cfg) (env : Env X) (crit : ℕ → ℂ → ℕ → X → X → Bool) (i : ℕ) (s : St X) : Cause X → Prop
  | first : env.predict i s.space s.time s.delta = .firstFail → Happens cfg env crit i s .first
  | solve : env.predict i s.space s.time s.delta = .solveFail → Happens cfg env crit i s .solve
  | prec : env.predict i s.space s.time s.delta = .higherPrec → Happens cfg env crit i s .prec
  | newtonSolve {q x} : env.predict i s.space s.time s.delta = .ok q →
      correctAt cfg env (crit i (s.time + s.delta)) i q (s.time + s.delta) = (.matrixSolveFailure, x) →
      Happens cfg env crit i s (.newtonSolve q)
  | newtonSlow {q x} : env.predict i s.space s.time s.delta = .ok q →
      correctAt cfg env (crit i (s.time + s.delta)) i q (s.time + s.delta) = (.failedToConverge, x) →
      Happens cfg env crit i s (.newtonSlow q)
  | newtonPrec {q x} : env.predict i s.space s.time s.delta = .ok q →
      correctAt cfg env (crit i (s.time + s.delta)) i q (s.time + s.delta) = (.higherPrecisionNecessary, x) →
      Happens cfg env crit i s (.newtonPrec q)
  | done {q p} : env.predict i s.space s.time s.delta = .ok q →
      correctAt cfg env (crit i (s.time + s.delta)) i q (s.time + s.delta) = (.success, p) →
      Happens cfg env crit i s (.done q p)

/-- What the observers should be told.  There is no notification for Newton's method being too slow; the failed step is
announced after the iteration (C175). -/
def Cause.told : Cause X → List (Note X)
  | .first => [.newStep, .firstSolve]
  | .solve => [.newStep, .predictSolve]
  | .prec => [.newStep, .predictPrec]
  | .newtonSolve q => [.newStep, .predicted q, .correctSolve]
  | .newtonSlow q => [.newStep, .predicted q]
  | .newtonPrec q => [.newStep, .predicted q, .correctPrec]
  | .done q p => [.newStep, .predicted q, .corrected p]

/-- **C177**, the full statement: in every step the observers of the fixed precision and of the adaptive tracker are
told what happened. -/
def C177_full : Prop :=
  ∀ (cfg : Cfg) (env : Env ℤ) (i : ℕ) (s : St ℤ) (c : Cause ℤ),
    (Happens cfg env (fun _ _ _ _ _ => true) i s c → fixedNotes cfg env i s = c.told) ∧
    (Happens cfg env env.crit i s c → ampNotes cfg env i s = c.told)

/-! ### Proof -/

theorem newtonLoop_noCrit {R : Type} [LT R] [DecidableLT R] (a : NewtonArgs X R) (h : ∀ i d z, a.crit i d z = true)
    (n ii : ℕ) (z : X) : (newtonLoop a n ii z).1 ≠ .higherPrecisionNecessary := by
  induction n generalizing ii z with
  | zero => simp [newtonLoop]
  | succ n ih =>
    rw [newtonLoop]
    cases a.solve z with
    | none => simp
    | some d =>
      dsimp only
      split
      · simp
      · rw [if_pos (h _ _ _)]
        exact ih _ _

/-- Newton's method reports a failed solve only if one failed. -/
theorem newtonLoop_solve {R : Type} [LT R] [DecidableLT R] (a : NewtonArgs X R) (n ii : ℕ) (z : X)
    (h : (newtonLoop a n ii z).1 = .matrixSolveFailure) : ∃ y, a.solve y = none := by
  induction n generalizing ii z with
  | zero => simp [newtonLoop] at h
  | succ n ih =>
    rw [newtonLoop] at h
    cases hs : a.solve z with
    | none => exact ⟨z, hs⟩
    | some d =>
      rw [hs] at h
      dsimp only at h
      split at h
      · cases h
      · split at h
        · exact ih _ _ h
        · cases h

/-- The cause `newtonSolve` means what it says. -/
theorem happens_solve {cfg : Cfg} {env : Env X} {crit : ℕ → ℂ → ℕ → X → X → Bool} {i : ℕ} {s : St X} {q : X}
    (h : Happens cfg env crit i s (.newtonSolve q)) : ∃ z, env.solve i (s.time + s.delta) z = none := by
  cases h with
  | newtonSolve hp hr =>
    have h1 : (newtonLoop (X := X) (R := ℝ) {
      solve := env.solve i (s.time + s.delta), norm := env.norm, tol := cfg.tol, minIts := cfg.minNewton,
      maxIts := cfg.maxNewton, crit := crit i (s.time + s.delta) } cfg.maxNewton 0 q).1 = .matrixSolveFailure :=
      congrArg Prod.fst hr
    exact newtonLoop_solve _ _ _ _ h1

/-- In every step exactly one thing happens. -/
theorem happens_unique (cfg : Cfg) (env : Env X) (crit : ℕ → ℂ → ℕ → X → X → Bool) (i : ℕ) (s : St X) :
    ∃! c, Happens cfg env crit i s c := by
  cases hp : env.predict i s.space s.time s.delta with
  | firstFail =>
    refine ⟨.first, .first hp, fun c hc => ?_⟩
    cases hc <;> simp_all
  | solveFail =>
    refine ⟨.solve, .solve hp, fun c hc => ?_⟩
    cases hc <;> simp_all
  | higherPrec =>
    refine ⟨.prec, .prec hp, fun c hc => ?_⟩
    cases hc <;> simp_all
  | ok q =>
    have hcode := newtonLoop_codes (X := X) (R := ℝ) {
      solve := env.solve i (s.time + s.delta), norm := env.norm, tol := cfg.tol, minIts := cfg.minNewton, maxIts := cfg.maxNewton, crit := crit i (s.time + s.delta) }
      cfg.maxNewton 0 q |>.1
    have hc : (correctAt cfg env (crit i (s.time + s.delta)) i q (s.time + s.delta)).1 = .success ∨
      (correctAt cfg env (crit i (s.time + s.delta)) i q (s.time + s.delta)).1 = .failedToConverge ∨
      (correctAt cfg env (crit i (s.time + s.delta)) i q (s.time + s.delta)).1 = .matrixSolveFailure ∨
      (correctAt cfg env (crit i (s.time + s.delta)) i q (s.time + s.delta)).1 = .higherPrecisionNecessary := hcode
    rcases hr : correctAt cfg env (crit i (s.time + s.delta)) i q (s.time + s.delta) with ⟨code, x⟩
    rw [hr] at hc
    dsimp only at hc
    rcases hc with rfl | rfl | rfl | rfl
    · refine ⟨.done q x, .done hp hr, fun c hc => ?_⟩
      cases hc <;> simp_all
    · refine ⟨.newtonSlow q, .newtonSlow hp hr, fun c hc => ?_⟩
      cases hc <;> simp_all
    · refine ⟨.newtonSolve q, .newtonSolve hp hr, fun c hc => ?_⟩
      cases hc <;> simp_all
    · refine ⟨.newtonPrec q, .newtonPrec hp hr, fun c hc => ?_⟩
      cases hc <;> simp_all

/-- **C177, adaptive precision**: right in all cases but one: slow convergence is announced as a failed linear solve. -/
theorem C177_amp_partial (cfg : Cfg) (env : Env X) (i : ℕ) (s : St X) (c : Cause X) (h : Happens cfg env env.crit i s c) :
    ampNotes cfg env i s =
      match (generalizing := false) c with
      | .newtonSlow q => [.newStep, .predicted q, .correctSolve]
      | c => c.told := by
  cases h with
  | first hp => simp [ampNotes, hp, Cause.told]
  | solve hp => simp [ampNotes, hp, Cause.told]
  | prec hp => simp [ampNotes, hp, Cause.told]
  | newtonSolve hp hr => simp [ampNotes, hp, hr, Cause.told]
  | newtonSlow hp hr => simp [ampNotes, hp, hr]
  | newtonPrec hp hr => simp [ampNotes, hp, hr, Cause.told]
  | done hp hr => simp [ampNotes, hp, hr, Cause.told]

/-- **C177, fixed precision**: right when the step succeeds, when the first solve of the prediction fails and when a solve
of Newton's method fails; every other failure is announced as one of these. -/
theorem C177_fixed_partial (cfg : Cfg) (env : Env X) (i : ℕ) (s : St X) (c : Cause X)
    (h : Happens cfg env (fun _ _ _ _ _ => true) i s c) :
    fixedNotes cfg env i s =
      match (generalizing := false) c with
      | .solve => [.newStep, .firstSolve]
      | .prec => [.newStep, .firstSolve]
      | .newtonSlow q => [.newStep, .predicted q, .correctSolve]
      | c => c.told := by
  cases h with
  | first hp => simp [fixedNotes, hp, Cause.told]
  | solve hp => simp [fixedNotes, hp]
  | prec hp => simp [fixedNotes, hp]
  | newtonSolve hp hr => simp [fixedNotes, hp, hr, Cause.told]
  | newtonSlow hp hr => simp [fixedNotes, hp, hr]
  | @newtonPrec q x hp hr =>
    exfalso
    have := newtonLoop_noCrit (X := X) (R := ℝ) {
      solve := env.solve i (s.time + s.delta), norm := env.norm, tol := cfg.tol, minIts := cfg.minNewton, maxIts := cfg.maxNewton, crit := fun _ _ _ => true }
      (fun _ _ _ => rfl) cfg.maxNewton 0 q
    exact this (congrArg Prod.fst hr)
  | done hp hr => simp [fixedNotes, hp, hr, Cause.told]

/-- The announcement of a corrected point means that the step succeeds with that point as the new current point, and
conversely. -/
theorem C177_success_partial (cfg : Cfg) (ac : AmpCfg) (env : Env X) (i : ℕ) (s : St X) (p : X) :
    (.corrected p ∈ fixedNotes cfg env i s ↔
      ((fixedTracker cfg env).iter i s).1 = .success ∧ ((fixedTracker cfg env).iter i s).2.space = p) ∧
    (.corrected p ∈ ampNotes cfg env i s ↔
      ((ampTracker cfg ac env).iter i s).1 = .success ∧ ((ampTracker cfg ac env).iter i s).2.space = p) := by
  constructor
  · have F := fixed_faithful cfg env
    obtain ⟨c, hc, -⟩ := happens_unique cfg env (fun _ _ _ _ _ => true) i s
    rw [C177_fixed_partial cfg env i s c hc]
    constructor
    · intro h
      cases hc with
      | done hp hr =>
        simp only [Cause.told, List.mem_cons, reduceCtorEq, Note.corrected.injEq, List.not_mem_nil, or_false,
          false_or] at h
        subst h
        have h1 := F.conv i s _ _ hp hr
        obtain ⟨q', a, b⟩ := F.ok i s h1
        rw [hp] at a
        cases a
        exact ⟨h1, (congrArg Prod.snd (b.symm.trans hr))⟩
      | _ => simp [Cause.told] at h
    · rintro ⟨h1, rfl⟩
      obtain ⟨q, a, b⟩ := F.ok i s h1
      have h2 := Happens.done (cfg := cfg) (env := env) (crit := fun _ _ _ _ _ => true) (i := i) (s := s) a b
      obtain rfl := (happens_unique cfg env (fun _ _ _ _ _ => true) i s).unique hc h2
      simp [Cause.told]
  · have F := amp_faithful cfg ac env
    obtain ⟨c, hc, -⟩ := happens_unique cfg env env.crit i s
    rw [C177_amp_partial cfg env i s c hc]
    constructor
    · intro h
      cases hc with
      | done hp hr =>
        simp only [Cause.told, List.mem_cons, reduceCtorEq, Note.corrected.injEq, List.not_mem_nil, or_false,
          false_or] at h
        subst h
        have h1 := F.conv i s _ _ hp hr
        obtain ⟨q', a, b⟩ := F.ok i s h1
        rw [hp] at a
        cases a
        exact ⟨h1, (congrArg Prod.snd (b.symm.trans hr))⟩
      | _ => simp [Cause.told] at h
    · rintro ⟨h1, rfl⟩
      obtain ⟨q, a, b⟩ := F.ok i s h1
      have h2 := Happens.done (cfg := cfg) (env := env) (crit := env.crit) (i := i) (s := s) a b
      obtain rfl := (happens_unique cfg env env.crit i s).unique hc h2
      simp [Cause.told]

/-- A singular start point is announced exactly when the call returns `SingularStartPoint`; then nothing else happens: the
call is announced, and ended.  Otherwise the call is announced and the notifications of the loop follow. -/
theorem C177_call_partial (cfg : Cfg) (ac : AmpCfg) (env : Env X) (refine' : ℕ → X → Option X) (reinit : Bool)
    (oldStep : ℝ) (oldDelta t0 t1 : ℂ) (p0 : ℕ) (x0 : X) (n : ℕ) :
    (.singular ∈ ampCallLog cfg ac env refine' reinit oldStep oldDelta t0 t1 p0 x0 n ↔
      ampCallCode cfg ac env refine' reinit oldStep oldDelta t0 t1 p0 x0 n = some .singularStartPoint) ∧
    ((ampCallCode cfg ac env refine' reinit oldStep oldDelta t0 t1 p0 x0 n = some .singularStartPoint ∧
      ∃ e : Event X, e.kind = .ended ∧ e.time = t0 ∧ e.point = x0 ∧
      ampCallLog cfg ac env refine' reinit oldStep oldDelta t0 t1 p0 x0 n =
        [.initializing t0 t1 x0, .singular, .loop e]) ∨
     (ampCallCode cfg ac env refine' reinit oldStep oldDelta t0 t1 p0 x0 n ≠ some .singularStartPoint ∧
      ∃ l : List (Event X), ampCallLog cfg ac env refine' reinit oldStep oldDelta t0 t1 p0 x0 n =
        .initializing t0 t1 x0 :: l.map .loop ∧
        if (ampCallCode cfg ac env refine' reinit oldStep oldDelta t0 t1 p0 x0 n).isSome
        then Complete (l.map Event.kind) else Steps (l.map Event.kind))) := by
  have hn : ∀ n c s o, runAt cfg env (ampTracker cfg ac env)
      (ampInit cfg ac refine' reinit oldStep oldDelta t0 t1 p0 x0).2 n = .done c s o → c ≠ .singularStartPoint := by
    intro n
    induction n with
    | zero => intro c s o h; simp [runAt] at h
    | succ n ih =>
      intro c s' o h
      rw [runAt_succ] at h
      cases hr : runAt cfg env (ampTracker cfg ac env)
          (ampInit cfg ac refine' reinit oldStep oldDelta t0 t1 p0 x0).2 n with
      | done c1 s1 o1 => rw [hr] at h; exact ih _ _ _ (hr.trans h)
      | running i s =>
        rw [hr] at h
        rcases notes_cases (cfg := cfg) (env := env) (T := ampTracker cfg ac env) i s with
          ⟨h1, e, f⟩ | ⟨h1, h2, e, f⟩ | ⟨h1, h2, e, f⟩ | ⟨h1, h2, h3, e, f⟩ | ⟨h1, h2, h3, e, f⟩
        · rw [e] at h; cases h; simp
        · rw [e] at h
          cases h
          simp only [ampTracker, ampPre]
          split
          · simp
          · split
            · simp
            · split <;> simp
        · rw [e] at h; cases h; simp
        · rw [e] at h; cases h
        · rw [e] at h; cases h
  rcases C41_initial ac.maxPrec refine' p0 x0 with ⟨k, y, hi, -⟩ | ⟨k, hi, -⟩
  · have h0 : (ampInit cfg ac refine' reinit oldStep oldDelta t0 t1 p0 x0).1 = .success := congrArg Prod.fst hi
    have hc : ampCallCode cfg ac env refine' reinit oldStep oldDelta t0 t1 p0 x0 n =
        match runAt cfg env (ampTracker cfg ac env)
          (ampInit cfg ac refine' reinit oldStep oldDelta t0 t1 p0 x0).2 n with
        | .running _ _ => none
        | .done c _ _ => some c := by
      unfold ampCallCode
      dsimp only
      rw [if_neg (not_not.2 h0)]
      cases runAt cfg env (ampTracker cfg ac env)
        (ampInit cfg ac refine' reinit oldStep oldDelta t0 t1 p0 x0).2 n <;> rfl
    have hl : ampCallLog cfg ac env refine' reinit oldStep oldDelta t0 t1 p0 x0 n =
        .initializing t0 t1 x0 :: (log cfg env (ampTracker cfg ac env)
          (ampInit cfg ac refine' reinit oldStep oldDelta t0 t1 p0 x0).2 n).map .loop := by
      unfold ampCallLog
      dsimp only
      rw [if_neg (not_not.2 h0)]
    have hne : ampCallCode cfg ac env refine' reinit oldStep oldDelta t0 t1 p0 x0 n ≠ some .singularStartPoint := by
      rw [hc]
      cases hr : runAt cfg env (ampTracker cfg ac env)
          (ampInit cfg ac refine' reinit oldStep oldDelta t0 t1 p0 x0).2 n with
      | running i s => simp
      | done c s o =>
        intro h
        exact hn n c s o hr (Option.some.inj h)
    refine ⟨⟨fun h => ?_, fun h => absurd h hne⟩, Or.inr ⟨hne, _, hl, ?_⟩⟩
    · rw [hl] at h
      simp at h
    · have hs := reports_shape (cfg := cfg) (env := env) (T := ampTracker cfg ac env)
        (s0 := (ampInit cfg ac refine' reinit oldStep oldDelta t0 t1 p0 x0).2) n
      rw [hc]
      cases hr : runAt cfg env (ampTracker cfg ac env)
          (ampInit cfg ac refine' reinit oldStep oldDelta t0 t1 p0 x0).2 n with
      | running i s =>
        rw [hr] at hs
        simpa using hs
      | done c s o =>
        rw [hr] at hs
        simpa using hs
  · have h0 : (ampInit cfg ac refine' reinit oldStep oldDelta t0 t1 p0 x0).1 = .singularStartPoint :=
      congrArg Prod.fst hi
    have hx : (ampInit cfg ac refine' reinit oldStep oldDelta t0 t1 p0 x0).2.space = x0 := by
      show (initialRefinement ac.maxPrec refine' p0 x0).2.2 = x0
      rw [hi]
    have hb : (ampInit cfg ac refine' reinit oldStep oldDelta t0 t1 p0 x0).1 ≠ .success := by
      rw [h0]; simp
    have hc : ampCallCode cfg ac env refine' reinit oldStep oldDelta t0 t1 p0 x0 n = some .singularStartPoint := by
      unfold ampCallCode
      dsimp only
      rw [if_pos hb, h0]
    have hl : ampCallLog cfg ac env refine' reinit oldStep oldDelta t0 t1 p0 x0 n =
        [.initializing t0 t1 x0, .singular,
          .loop (seen .ended (ampInit cfg ac refine' reinit oldStep oldDelta t0 t1 p0 x0).2)] := by
      unfold ampCallLog
      dsimp only
      rw [if_pos hb]
    refine ⟨⟨fun _ => hc, fun _ => ?_⟩, Or.inl ⟨hc, _, rfl, rfl, hx, hl⟩⟩
    rw [hl]
    simp

/-- A system on which every linear solve of Newton's method succeeds, but which needs more iterations. -/
noncomputable def slow : Env ℤ := { easy 1 with norm := fun _ => 1 }

theorem slow_correct (crit : ℕ → ℤ → ℤ → Bool) (hc : ∀ i d z, crit i d z = true) (i : ℕ) (q : ℤ) (t : ℂ) :
    correctAt cfgE slow crit i q t = (.failedToConverge, q + 1 + 1) := by
  have h1 : ¬ ((1 : ℝ) < 1 / 10) := by norm_num
  simp [correctAt, correct, newtonLoop, slow, easy, cfgE, hc]
  norm_num

/-- **C177 fails**: no linear solve fails on `slow`, and a failed one is announced. -/
theorem C177_refuted : ¬ C177_full := by
  intro hf
  have h := (hf cfgE slow 0 (stE 1 (1 / 4) 0 0 0) (.newtonSlow 0)).2
    (.newtonSlow (q := 0) rfl (slow_correct _ (fun _ _ _ => rfl) _ _ _))
  rw [C177_amp_partial cfgE slow 0 (stE 1 (1 / 4) 0 0 0) (.newtonSlow 0)
    (.newtonSlow (q := 0) rfl (slow_correct _ (fun _ _ _ => rfl) _ _ _))] at h
  simp [Cause.told] at h

/-- And for both trackers: the announcement does not mean that a solve failed. -/
theorem C177_solve_refuted : ∃ (cfg : Cfg) (env : Env ℤ) (s : St ℤ), (∀ i t z, env.solve i t z ≠ none) ∧
    .correctSolve ∈ fixedNotes cfg env 0 s ∧ .correctSolve ∈ ampNotes cfg env 0 s := by
  refine ⟨cfgE, slow, stE 1 (1 / 4) 0 0 0, fun i t z => by simp [slow, easy], ?_, ?_⟩
  · rw [C177_fixed_partial cfgE slow 0 (stE 1 (1 / 4) 0 0 0) (.newtonSlow 0)
      (.newtonSlow (q := 0) rfl (slow_correct _ (fun _ _ _ => rfl) _ _ _))]
    simp
  · rw [C177_amp_partial cfgE slow 0 (stE 1 (1 / 4) 0 0 0) (.newtonSlow 0)
      (.newtonSlow (q := 0) rfl (slow_correct _ (fun _ _ _ => rfl) _ _ _))]
    simp

/-- A step that succeeds: the prediction and the correction are announced. -/
example : fixedNotes cfgE (easy 3) 0 (stE 1 (1 / 4) 2 0 0) = [.newStep, .predicted 2, .corrected 5] := by
  have h1 : (0 : ℝ) < 1 / 10 := by norm_num
  refine C177_fixed_partial cfgE (easy 3) 0 (stE 1 (1 / 4) 2 0 0) (.done 2 5) (.done rfl ?_)
  simp [correctAt, correct, newtonLoop, easy, cfgE, uPred, h1]

end B2.Track
