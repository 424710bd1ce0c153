/-
Property C178: the notifications of an endgame say how it ended.
-/
import Verif.Endgame.Events
import Verif.Endgame.PropsConverge
import Verif.Endgame.PropsCauchy

namespace B2.Endgame
open B2.Track (Code)

variable {X : Type}

/-! ### Specification -/

/-- Is the notification (derived from) `EndgameFailure`? -/
def EgEv.isFailure : EgEv X → Bool
  | .approximated _ => false
  | .converged => false
  | _ => true

/-- Only approximations were announced. -/
def Quiet (l : List (EgEv X)) : Prop := ∀ e ∈ l, ∃ x, e = .approximated x

/-- The notifications `l` of a run that ended with code `c` and the approximation `a`: a success is announced by
`Converged`, at the end, after the approximation returned (if there was a turn), and a failure by one notification of a
failure, at the end; before that only approximations are announced. -/
def Tells (c : Code) (a : X) (l : List (EgEv X)) : Prop :=
  if c = .success then ∃ l', Quiet l' ∧ l = l' ++ [.converged] ∧ (l' = [] ∨ l'.getLast? = some (.approximated a))
  else ∃ l' f, Quiet l' ∧ f.isFailure = true ∧ l = l' ++ [f]

/-- **C178**, the full statement, for both endgames. -/
def C178_full : Prop :=
  (∀ (E : EgEnv ℤ) (cfg : EgCfg) (start target : ℂ) (x0 : ℤ) (fuel : ℕ) (c : Code) (s : PSt ℤ),
    runPS E cfg start target x0 fuel = .done c s → Tells c s.latest (runNotesPS E cfg start target x0 fuel)) ∧
  (∀ (E : CEnv ℤ) (cfg : CCfg) (start target : ℂ) (x0 : ℤ) (fuel : ℕ) (c : Code) (s : CSt ℤ),
    runC E cfg start target x0 fuel = .done c s → Tells c s.latest (runNotesC E cfg start target x0 fuel))

/-- The tracker can return the code `c`. -/
def TrackGives (E : EgEnv X) (c : Code) : Prop := ∃ k t t' x, (E.track k t t' x).1 = c

/-- The refinement of a sample can return the code `c`. -/
def RefineGives (E : EgEnv X) (c : Code) : Prop := ∃ k x t, (E.refine k x t).1 = c

/-- What is announced of a failed run of the power series endgame. -/
def FailedPS (E : EgEnv X) (c : Code) (f : List (EgEv X)) : Prop :=
  (f = [.failure] ∧ TrackGives E c) ∨ (f = [.minTrackTime, .failure] ∧ c = .minTrackTimeReached) ∨
    (f = [.refiningFailed, .failure] ∧ RefineGives E c) ∨ (f = [.maxNorm] ∧ c = .securityMaxNormReached)

/-- What is announced of a failed run of the Cauchy endgame; `ini` says that the failure came before the first
approximation. -/
def FailedC (E : EgEnv X) (ini : Prop) (c : Code) (f : List (EgEv X)) : Prop :=
  (f = [] ∧ (c = .minTrackTimeReached ∨ TrackGives E c ∨ (ini ∧ c = .cycleNumTooHigh))) ∨
    (f = [.failure] ∧ TrackGives E c) ∨ (f = [.cycleNumTooHigh] ∧ c = .cycleNumTooHigh) ∨
    (f = [.maxNorm] ∧ c = .securityMaxNormReached)

/-! ### Power series: proof -/

theorem quiet_nil : Quiet ([] : List (EgEv X)) := fun _ h => by cases h

theorem Quiet.cons {x : X} {l : List (EgEv X)} (h : Quiet l) : Quiet (.approximated x :: l) := by
  intro e he
  rcases List.mem_cons.1 he with rfl | he
  · exact ⟨x, rfl⟩
  · exact h e he

/-- The outcome of a run of the loop from `s`, and its notifications. -/
def OutPS (E : EgEnv X) (s : PSt X) (r : Res (PSt X)) (l : List (EgEv X)) : Prop :=
  match r with
  | .done c s' => if c = .success then ∃ l', Quiet l' ∧ l = l' ++ [.converged] ∧
      ((l' = [] ∧ s'.latest = s.latest) ∨ l'.getLast? = some (.approximated s'.latest))
    else ∃ l' f, Quiet l' ∧ FailedPS E c f ∧ l = l' ++ f
  | .more _ => Quiet l
  | .bad => Quiet l

theorem advance_notesPS (E : EgEnv X) (cfg : EgCfg) (target : ℂ) (s : PSt X) :
    (advancePS E cfg target s = none ∧ advanceNotesPS E cfg target s = []) ∨
    ∃ c s1, advancePS E cfg target s = some (c, s1) ∧
      ((c = .success ∧ advanceNotesPS E cfg target s = []) ∨
       (c ≠ .success ∧ FailedPS E c (advanceNotesPS E cfg target s ++ [.failure]))) := by
  unfold advancePS advanceNotesPS
  cases s.times.getLast? with
  | none => left; simp
  | some t =>
    cases s.samples.getLast? with
    | none => left; simp
    | some x =>
      right
      dsimp only
      by_cases h1 : ‖nextTimePS cfg.factor target t - target‖ < cfg.minTrack
      · rw [if_pos h1, if_pos h1]
        exact ⟨_, _, rfl, Or.inr ⟨by simp, Or.inr (Or.inl ⟨rfl, rfl⟩)⟩⟩
      rw [if_neg h1, if_neg h1]
      by_cases h2 : (E.track s.k t (nextTimePS cfg.factor target t) x).1 ≠ .success
      · rw [if_pos h2, if_pos h2]
        exact ⟨_, _, rfl, Or.inr ⟨h2, Or.inl ⟨rfl, _, _, _, _, rfl⟩⟩⟩
      rw [if_neg h2, if_neg h2]
      by_cases h3 : (E.refine (s.k + 1) (E.track s.k t (nextTimePS cfg.factor target t) x).2
          (nextTimePS cfg.factor target t)).1 ≠ .success
      · rw [if_pos h3, if_pos h3]
        exact ⟨_, _, rfl, Or.inr ⟨h3, Or.inr (Or.inr (Or.inl ⟨rfl, _, _, _, rfl⟩))⟩⟩
      rw [if_neg h3, if_neg h3]
      split
      · exact ⟨_, _, rfl, Or.inl ⟨rfl, rfl⟩⟩
      · exact ⟨_, _, rfl, Or.inl ⟨rfl, rfl⟩⟩

theorem step_notesPS (E : EgEnv X) (cfg : EgCfg) (target : ℂ) (s : PSt X) :
    match stepPS E cfg target s with
    | .done c s' => if c = .success then s' = s ∧ stepNotesPS E cfg target s = [.converged]
        else ∃ l' f, Quiet l' ∧ FailedPS E c f ∧ stepNotesPS E cfg target s = l' ++ f
    | .more s' => stepNotesPS E cfg target s = [.approximated s'.latest]
    | .bad => Quiet (stepNotesPS E cfg target s) := by
  unfold stepPS stepNotesPS
  by_cases h : above cfg.finalTol s.err
  swap
  · rw [if_neg h, if_neg h]
    simp
  rw [if_pos h, if_pos h]
  rcases advance_notesPS E cfg target s with ⟨h1, h2⟩ | ⟨c, s1, h1, h2⟩
  · rw [h1, h2]
    exact quiet_nil
  rw [h1]
  dsimp only
  rcases h2 with ⟨rfl, h2⟩ | ⟨hc, h2⟩
  swap
  · rw [if_pos hc, if_pos hc]
    dsimp only
    rw [if_neg hc]
    exact ⟨[], _, quiet_nil, h2, rfl⟩
  have hne : ¬ (Code.success ≠ Code.success) := fun h => h rfl
  rw [h2, if_neg hne, if_neg hne, List.nil_append]
  generalize extrapolatePS E s1 = s2
  by_cases hl : cfg.level ≤ 0
  swap
  · rw [if_neg hl, if_neg (fun c => hl c.1)]
  rw [if_pos hl]
  by_cases hm : cfg.maxNorm < E.dehomNorm s2.latest
  swap
  · rw [if_neg hm, if_neg (fun c => hm c.2.1)]
  rw [if_pos hm]
  cases hn : s2.normPrev with
  | none =>
    dsimp only
    rw [if_neg (by rintro ⟨_, _, np, c, _⟩; cases c)]
    exact quiet_nil.cons
  | some np =>
    dsimp only
    by_cases hp : cfg.maxNorm < np
    · rw [if_pos hp, if_pos ⟨hl, hm, np, rfl, hp⟩]
      dsimp only
      rw [if_neg (by simp)]
      exact ⟨[.approximated s2.latest], [.maxNorm], quiet_nil.cons, Or.inr (Or.inr (Or.inr ⟨rfl, rfl⟩)), rfl⟩
    · rw [if_neg hp, if_neg (by
        rintro ⟨_, _, np', c, h⟩
        cases c
        exact hp h)]

theorem loop_notesPS (E : EgEnv X) (cfg : EgCfg) (target : ℂ) (fuel : ℕ) (s : PSt X) :
    OutPS E s (loopPS E cfg target fuel s) (loopNotesPS E cfg target fuel s) := by
  induction fuel generalizing s with
  | zero => exact quiet_nil
  | succ fuel ih =>
    have hs := step_notesPS E cfg target s
    rw [loopPS, loopNotesPS]
    cases hr : stepPS E cfg target s with
    | done c s' =>
      rw [hr] at hs
      dsimp only at hs ⊢
      rw [List.append_nil]
      unfold OutPS
      dsimp only
      by_cases hc : c = .success
      · rw [if_pos hc] at hs ⊢
        obtain ⟨rfl, h⟩ := hs
        exact ⟨[], quiet_nil, h, Or.inl ⟨rfl, rfl⟩⟩
      · rw [if_neg hc] at hs ⊢
        exact hs
    | bad =>
      rw [hr] at hs
      dsimp only at hs ⊢
      rw [List.append_nil]
      exact hs
    | more s' =>
      rw [hr] at hs
      dsimp only at hs ⊢
      rw [hs]
      have h := ih s'
      generalize loopPS E cfg target fuel s' = r at h
      generalize loopNotesPS E cfg target fuel s' = l at h
      unfold OutPS at h ⊢
      cases r with
      | more _ => exact h.cons
      | bad => exact h.cons
      | done c s2 =>
        dsimp only at h ⊢
        by_cases hc : c = .success
        · rw [if_pos hc] at h ⊢
          obtain ⟨l', h1, rfl, h3⟩ := h
          refine ⟨.approximated s'.latest :: l', h1.cons, rfl, Or.inr ?_⟩
          rcases h3 with ⟨rfl, h3⟩ | h3
          · rw [h3]; rfl
          · cases l' with
            | nil => cases h3
            | cons a l' => exact h3
        · rw [if_neg hc] at h ⊢
          obtain ⟨l', f, h1, h2, rfl⟩ := h
          exact ⟨.approximated s'.latest :: l', f, h1.cons, h2, rfl⟩

/-- Failing initial samples return the code of a track. -/
theorem initial_gives (E : EgEnv X) (cfg : EgCfg) (target : ℂ) (rem k : ℕ) (ts : List ℂ) (xs : List X) (t : ℂ) (x : X)
    (h : (initialLoop E cfg target rem k ts xs t x).1 ≠ .success) :
    TrackGives E (initialLoop E cfg target rem k ts xs t x).1 := by
  induction rem generalizing k ts xs t x with
  | zero => exact absurd rfl h
  | succ rem ih =>
    rw [initialLoop] at h ⊢
    by_cases hc : (E.track k t (nextTimePS cfg.factor target t) x).1 = .success
    · rw [if_pos hc] at h ⊢
      exact ih _ _ _ _ _ h
    · rw [if_neg hc]
      exact ⟨_, _, _, _, rfl⟩

/-- **C178, power series endgame**: a success is announced as the statement says; a failure is announced, but sometimes
twice: reaching the minimal time, or a failed refinement, is announced before the failure. -/
theorem C178_ps_partial (E : EgEnv X) (cfg : EgCfg) (start target : ℂ) (x0 : X) (fuel : ℕ) (c : Code) (s : PSt X)
    (h : runPS E cfg start target x0 fuel = .done c s) :
    (c = .success → Tells c s.latest (runNotesPS E cfg start target x0 fuel)) ∧
    (c ≠ .success → ∃ l' f, Quiet l' ∧ FailedPS E c f ∧ runNotesPS E cfg start target x0 fuel = l' ++ f) := by
  unfold runPS at h
  unfold runNotesPS
  cases hi : initPS E cfg start target x0 with
  | bad => rw [hi] at h; cases h
  | done c' s' =>
    rw [hi] at h
    cases h
    have hic : c ≠ .success ∧ TrackGives E c := by
      unfold initPS at hi
      dsimp only at hi
      split at hi
      · rename_i hn
        cases hi
        exact ⟨hn, initial_gives E cfg target _ _ _ _ _ _ hn⟩
      · cases hi
    exact ⟨fun hc => absurd hc hic.1, fun _ => ⟨[], _, quiet_nil, Or.inl ⟨rfl, hic.2⟩, rfl⟩⟩
  | more s' =>
    rw [hi] at h
    dsimp only at h ⊢
    have hl := loop_notesPS E cfg target fuel s'
    rw [h] at hl
    unfold OutPS at hl
    dsimp only at hl
    by_cases hc : c = .success
    · rw [if_pos hc] at hl
      refine ⟨fun _ => ?_, fun hn => absurd hc hn⟩
      unfold Tells
      rw [if_pos hc]
      obtain ⟨l', h1, h2, h3⟩ := hl
      exact ⟨l', h1, h2, h3.imp (fun a => a.1) id⟩
    · rw [if_neg hc] at hl
      exact ⟨fun hn => absurd hn hc, fun _ => hl⟩

/-! ### Cauchy: proof -/

/-- A part of a run in which nothing is approximated. -/
def Sub (E : EgEnv X) (ini : Prop) (r : Res (CSt X)) (l : List (EgEv X)) : Prop :=
  match r with
  | .done c _ => if c = .success then l = [] else
      (l = [] ∧ (c = .minTrackTimeReached ∨ TrackGives E c ∨ (ini ∧ c = .cycleNumTooHigh))) ∨
        (l = [.failure] ∧ TrackGives E c) ∨ (l = [.cycleNumTooHigh] ∧ c = .cycleNumTooHigh)
  | _ => l = []

theorem andThen_of_ne {S : Type} {c : Code} (h : c ≠ .success) (s : S) (f : S → Res S) :
    (Res.done c s).andThen f = .done c s := by
  cases c <;> first | rfl | exact absurd rfl h

theorem thenNotes_of_ne {S : Type} {c : Code} (h : c ≠ .success) (s : S) (g : S → List (EgEv X)) :
    (Res.done c s).thenNotes g = [] := by
  cases c <;> first | rfl | exact absurd rfl h

theorem Sub.andThen {E : EgEnv X} {ini : Prop} {r : Res (CSt X)} {l : List (EgEv X)} (h : Sub E ini r l) {f : CSt X → Res (CSt X)}
    {g : CSt X → List (EgEv X)} (hf : ∀ s, Sub E ini (f s) (g s)) : Sub E ini (r.andThen f) (l ++ r.thenNotes g) := by
  cases r with
  | more s => simp only [Sub] at h; subst h; rfl
  | bad => simp only [Sub] at h; subst h; rfl
  | done c s =>
    by_cases hc : c = .success
    · subst hc
      simp only [Sub, if_true] at h
      subst h
      exact hf s
    · rw [andThen_of_ne hc, thenNotes_of_ne hc, List.append_nil]
      exact h

theorem sub_advance (E : CEnv X) (ini : Prop) (cfg : CCfg) (target : ℂ) (s : CSt X) :
    Sub E.toEgEnv ini (advanceC E cfg target s) (advanceNotesC E cfg target s) := by
  unfold advanceC advanceNotesC
  cases s.psT.getLast? with
  | none => rfl
  | some t =>
    cases s.psX.getLast? with
    | none => rfl
    | some x =>
      dsimp only
      by_cases h1 : ‖nextTimeC cfg.factor target t - target‖ < cfg.minTrack
      · rw [if_pos h1, if_pos h1]
        simp [Sub]
      rw [if_neg h1, if_neg h1]
      by_cases h2 : (E.track s.k t (nextTimeC cfg.factor target t) x).1 ≠ .success
      · rw [if_pos h2, if_pos h2]
        unfold Sub
        dsimp only
        rw [if_neg h2]
        exact Or.inr (Or.inl ⟨rfl, _, _, _, _, rfl⟩)
      · rw [if_neg h2, if_neg h2]
        simp [Sub]

/-- A failing circle returns the code of a track. -/
theorem circle_gives (E : CEnv X) (n : ℕ) (t0 target : ℂ) (rem ii k : ℕ) (ts : List ℂ) (xs : List X) (t : ℂ) (x : X)
    (h : (circleLoop E n t0 target rem ii k ts xs t x).1 ≠ .success) :
    TrackGives E.toEgEnv (circleLoop E n t0 target rem ii k ts xs t x).1 := by
  induction rem generalizing ii k ts xs t x with
  | zero => exact absurd rfl h
  | succ rem ih =>
    rw [circleLoop] at h ⊢
    split
    · rename_i hc
      rw [if_pos hc] at h
      exact ih _ _ _ _ _ _ h
    · exact ⟨_, _, _, _, rfl⟩

/-- Failing circles are not announced. -/
theorem sub_circle (E : CEnv X) (ini : Prop) (cfg : CCfg) (target : ℂ) (s : CSt X) :
    Sub E.toEgEnv ini (circleTrack E cfg target s) [] := by
  unfold circleTrack
  split
  · rfl
  · split
    · dsimp only [Sub]
      split
      · rfl
      · rename_i hc
        exact Or.inl ⟨rfl, Or.inr (Or.inl (circle_gives _ _ _ _ _ _ _ _ _ _ _ hc))⟩
    · rfl

/-- A cycle number that is too high is not announced before the first approximation. -/
theorem sub_close (E : CEnv X) (cfg : CCfg) (target : ℂ) (s : CSt X) :
    Sub E.toEgEnv True (closeLoop E cfg target s) [] := by
  induction hn : cfg.failsafe + 1 - s.cyc using Nat.strong_induction_on generalizing s with
  | _ n ih =>
    rw [closeLoop]
    dsimp only
    split
    · simp [Sub]
    split
    · simp [Sub]
    · rename_i _ hcyc
      have hs := sub_circle E True cfg target { (checkClosed E cfg s).2 with cyc := s.cyc }
      cases hr : circleTrack E cfg target { (checkClosed E cfg s).2 with cyc := s.cyc } with
      | more s' => rfl
      | bad => rfl
      | done c s' =>
        rw [hr] at hs
        by_cases hc : c = .success
        · subst hc
          exact ih (cfg.failsafe + 1 - (s.cyc + 1)) (by omega) _ rfl
        · cases c <;> first | exact absurd rfl hc | exact hs

theorem sub_initial (E : CEnv X) (cfg : CCfg) (target : ℂ) (fuel : ℕ) (s : CSt X) :
    Sub E.toEgEnv True (initialLoops E cfg target fuel s) (initialNotesC E cfg target fuel s) := by
  induction fuel generalizing s with
  | zero => rfl
  | succ fuel ih =>
    rw [initialLoops, initialNotesC]
    refine (sub_circle E True cfg target _).andThen (l := []) fun s1 => ?_
    by_cases h : zoneTest E cfg target s1
    · rw [if_pos h, if_pos h]
      exact sub_close _ _ _ _
    · rw [if_neg h, if_neg h]
      exact (sub_advance E True cfg target s1).andThen ih

theorem sub_zoneFor (E : CEnv X) (cfg : CCfg) (target : ℂ) (f : List ℝ → CSt X → Res (CSt X))
    (g : List ℝ → CSt X → List (EgEv X)) (hf : ∀ l s, Sub E.toEgEnv True (f l s) (g l s)) (rem : ℕ) (l : List ℝ) (s : CSt X) :
    Sub E.toEgEnv True (zoneFor E cfg target rem l s f) (zoneForNotes E cfg target rem l s g) := by
  induction rem generalizing l s with
  | zero => exact hf l s
  | succ rem ih =>
    rw [zoneFor, zoneForNotes]
    refine (sub_advance E True cfg target s).andThen fun s1 => ?_
    cases ckOf E s1 with
    | none => rfl
    | some c => exact ih _ _

theorem sub_zoneWhile (E : CEnv X) (cfg : CCfg) (target : ℂ) (fuel : ℕ) (l : List ℝ) (s : CSt X) :
    Sub E.toEgEnv True (zoneWhile E cfg target fuel l s) (zoneWhileNotes E cfg target fuel l s) := by
  induction fuel generalizing l s with
  | zero => rfl
  | succ fuel ih =>
    rw [zoneWhile, zoneWhileNotes]
    split
    · refine (sub_advance E True cfg target s).andThen fun s1 => ?_
      cases ckOf E s1 with
      | none => rfl
      | some c => exact ih _ _
    · simp [Sub]

theorem sub_zone (E : CEnv X) (cfg : CCfg) (start target : ℂ) (x0 : X) (fuel : ℕ) (s : CSt X) :
    Sub E.toEgEnv True (intoZone E cfg start target x0 fuel s) (zoneNotes E cfg start target x0 fuel s) := by
  unfold intoZone zoneNotes
  dsimp only
  split
  · rename_i hc
    dsimp only [Sub]
    rw [if_neg hc]
    exact Or.inl ⟨rfl, Or.inr (Or.inl (initial_gives _ _ _ _ _ _ _ _ _ hc))⟩
  · split
    · rename_i heq
      rw [heq]
      rfl
    · rename_i heq
      rw [heq]
      exact sub_zoneFor E cfg target _ _ (sub_zoneWhile E cfg target fuel) _ _ _

theorem sub_samples (E : CEnv X) (ini : Prop) (cfg : CCfg) (target : ℂ) (s : CSt X) :
    Sub E.toEgEnv ini (samplesLoop E cfg target s) (samplesNotes E cfg target s) := by
  induction hn : cfg.failsafe - s.cyc using Nat.strong_induction_on generalizing s with
  | _ n ih =>
    rw [samplesLoop, samplesNotes]
    by_cases h : s.cyc < cfg.failsafe
    swap
    · rw [if_neg h, if_neg h]
      simp [Sub]
    rw [if_pos h, if_pos h]
    have hs := sub_circle E ini cfg target s
    cases hr : circleTrack E cfg target s with
    | more s' => rfl
    | bad => rfl
    | done c s' =>
      by_cases hc : c = .success
      · subst hc
        dsimp only
        cases hq : (checkClosed E cfg s').1 with
        | true => simp [Sub]
        | false =>
          refine ih (cfg.failsafe - (s.cyc + 1)) (by omega) _ rfl
      · cases c <;> first | exact absurd rfl hc | (rw [hr] at hs; exact hs)

/-- The outcome of the Cauchy loop and its notifications. -/
def OutC (E : EgEnv X) (p : List (EgEv X) → Prop) (r : Res (CSt X)) (l : List (EgEv X)) : Prop :=
  match r with
  | .done c s => if c = .success then ∃ l', Quiet l' ∧ l = l' ++ [.approximated s.latest, .converged]
    else ∃ l' f, Quiet l' ∧ FailedC E (p l') c f ∧ l = l' ++ f
  | _ => Quiet l

/-- What follows a part that announces nothing when it succeeds. -/
theorem Sub.out {E : EgEnv X} {p : List (EgEv X) → Prop} {r : Res (CSt X)} {l : List (EgEv X)} (h : Sub E (p []) r l)
    {f : CSt X → Res (CSt X)} {g : CSt X → List (EgEv X)} (hf : ∀ s, OutC E p (f s) (g s)) :
    OutC E p (r.andThen f) (l ++ r.thenNotes g) := by
  cases r with
  | more s => simp only [Sub] at h; subst h; exact quiet_nil
  | bad => simp only [Sub] at h; subst h; exact quiet_nil
  | done c s =>
    by_cases hc : c = .success
    · subst hc
      simp only [Sub, if_true] at h
      subst h
      exact hf s
    · rw [andThen_of_ne hc, thenNotes_of_ne hc, List.append_nil]
      unfold Sub at h
      dsimp only at h
      rw [if_neg hc] at h
      unfold OutC
      dsimp only
      rw [if_neg hc]
      exact ⟨[], l, quiet_nil, h.imp id fun h => h.imp id Or.inl, rfl⟩

theorem OutC.mono {E : EgEnv X} {p : List (EgEv X) → Prop} {r : Res (CSt X)} {l : List (EgEv X)}
    (h : OutC E (fun _ => False) r l) : OutC E p r l := by
  cases r with
  | more s => exact h
  | bad => exact h
  | done c s =>
    unfold OutC at h ⊢
    dsimp only at h ⊢
    by_cases hc : c = .success
    · rw [if_pos hc] at h ⊢
      exact h
    · rw [if_neg hc] at h ⊢
      obtain ⟨l', f, h1, h2, h3⟩ := h
      exact ⟨l', f, h1, h2.imp (fun a => ⟨a.1, a.2.imp id fun b => b.imp id fun c => absurd c.1 id⟩) id, h3⟩

theorem OutC.cons {E : EgEnv X} {r : Res (CSt X)} {l : List (EgEv X)} (h : OutC E (fun _ => False) r l) (x : X) :
    OutC E (fun _ => False) r (.approximated x :: l) := by
  unfold OutC at h ⊢
  cases r with
  | more s => exact Quiet.cons h
  | bad => exact Quiet.cons h
  | done c s =>
    dsimp only at h ⊢
    by_cases hc : c = .success
    · rw [if_pos hc] at h ⊢
      obtain ⟨l', h1, rfl⟩ := h
      exact ⟨.approximated x :: l', h1.cons, rfl⟩
    · rw [if_neg hc] at h ⊢
      obtain ⟨l', f, h1, h2, rfl⟩ := h
      exact ⟨.approximated x :: l', f, h1.cons, h2, rfl⟩

theorem sub_approx (E : CEnv X) (cfg : CCfg) (s : CSt X) : Sub E.toEgEnv False (cauchyApprox E cfg s) [] := by
  unfold cauchyApprox
  split
  · rfl
  · simp [Sub]

theorem out_loop (E : CEnv X) (cfg : CCfg) (target : ℂ) (fuel : ℕ) (s : CSt X) :
    OutC E.toEgEnv (fun _ => False) (loopC E cfg target fuel s) (loopNotesC E cfg target fuel s) := by
  induction fuel generalizing s with
  | zero => exact quiet_nil
  | succ fuel ih =>
    rw [loopC, loopNotesC]
    refine (sub_approx E cfg s).out (l := []) fun s1 => ?_
    unfold judge judgeNotes
    by_cases h1 : below cfg.finalTol (E.dist s1.latest s1.prev)
    · rw [if_pos h1, if_pos h1]
      dsimp only [OutC]
      rw [if_pos rfl]
      exact ⟨[], quiet_nil, rfl⟩
    rw [if_neg h1, if_neg h1]
    have next : ∀ s2 : CSt X, OutC E.toEgEnv (fun _ => False)
        ((advanceC E cfg target { s2 with prev := s2.latest, normPrev := s2.normLatest }).andThen fun s3 =>
          (cauchySamples E cfg target s3).andThen (loopC E cfg target fuel))
        (advanceNotesC E cfg target { s2 with prev := s2.latest, normPrev := s2.normLatest } ++
          (advanceC E cfg target { s2 with prev := s2.latest, normPrev := s2.normLatest }).thenNotes fun s4 =>
            samplesNotes E cfg target (clearAndSeed s4) ++
              (cauchySamples E cfg target s4).thenNotes (loopNotesC E cfg target fuel)) := by
      intro s2
      refine (sub_advance E False cfg target _).out fun s3 => ?_
      exact (sub_samples E False cfg target (clearAndSeed s3)).out ih
    by_cases h2 : cfg.level ≠ 0
    swap
    · rw [if_neg h2, if_neg (fun c => h2 c.1)]
      exact (next s1).cons _
    rw [if_pos h2]
    cases hn : s1.normPrev with
    | none =>
      dsimp only
      rw [if_neg (by rintro ⟨_, np, c, _⟩; cases c)]
      exact quiet_nil.cons
    | some np =>
      dsimp only
      by_cases h3 : cfg.maxNorm < np ∧ cfg.maxNorm < E.dehomNorm s1.latest
      · rw [if_pos h3, if_pos ⟨h2, np, rfl, h3⟩]
        dsimp only [OutC]
        rw [if_neg (by simp)]
        exact ⟨[.approximated s1.latest], [.maxNorm], quiet_nil.cons, Or.inr (Or.inr (Or.inr ⟨rfl, rfl⟩)), rfl⟩
      · rw [if_neg h3, if_neg (by
          rintro ⟨_, np', c, h⟩
          cases c
          exact h3 h)]
        exact (next _).cons _

/-- **C178, Cauchy endgame**: a success is announced as the statement says, right after the approximation returned; of a
failed run at most one failure is announced, at the end, and never convergence. -/
theorem C178_cauchy_partial (E : CEnv X) (cfg : CCfg) (start target : ℂ) (x0 : X) (fuel : ℕ) (c : Code) (s : CSt X)
    (h : runC E cfg start target x0 fuel = .done c s) :
    (c = .success → Tells c s.latest (runNotesC E cfg start target x0 fuel) ∧
      .approximated s.latest ∈ runNotesC E cfg start target x0 fuel) ∧
    (c ≠ .success → ∃ l' f, Quiet l' ∧ FailedC E.toEgEnv (l' = []) c f ∧ runNotesC E cfg start target x0 fuel = l' ++ f) := by
  have ho : OutC E.toEgEnv (fun l' => l' = []) (runC E cfg start target x0 fuel) (runNotesC E cfg start target x0 fuel) := by
    unfold runC runNotesC
    dsimp only
    refine Sub.out (by simpa using sub_zone E cfg start target x0 fuel _) fun s1 => ?_
    exact Sub.out (by simpa using sub_initial E cfg target fuel s1) fun s2 => (out_loop E cfg target fuel _).mono
  rw [h] at ho
  unfold OutC at ho
  dsimp only at ho
  by_cases hc : c = .success
  · rw [if_pos hc] at ho
    obtain ⟨l', h1, h2⟩ := ho
    refine ⟨fun _ => ⟨?_, ?_⟩, fun hn => absurd hc hn⟩
    · unfold Tells
      rw [if_pos hc]
      refine ⟨l' ++ [.approximated s.latest], ?_, by rw [h2]; simp, Or.inr (by simp)⟩
      intro e he
      rcases List.mem_append.1 he with he | he
      · exact h1 e he
      · exact ⟨s.latest, List.mem_singleton.1 he⟩
    · rw [h2]; simp
  · rw [if_neg hc] at ho
    exact ⟨fun hn => absurd hn hc, fun _ => ho⟩

/-- **C178, Cauchy endgame, the announced failures**: a track towards the target time that fails is announced (with a
tracker that does not return the endgame's own code). -/
theorem C178_advance_partial (E : CEnv X) (cfg : CCfg) (target : ℂ) (s s' : CSt X) (c : Code)
    (hE : ¬ TrackGives E.toEgEnv .minTrackTimeReached) (h : advanceC E cfg target s = .done c s') :
    advanceNotesC E cfg target s = if c = .success ∨ c = .minTrackTimeReached then [] else [.failure] := by
  unfold advanceC at h
  unfold advanceNotesC
  split at h
  · rename_i t x ht hx
    rw [ht, hx]
    dsimp only at h ⊢
    by_cases h1 : ‖nextTimeC cfg.factor target t - target‖ < cfg.minTrack
    · rw [if_pos h1] at h ⊢
      cases h
      simp
    rw [if_neg h1] at h ⊢
    by_cases h2 : (E.track s.k t (nextTimeC cfg.factor target t) x).1 ≠ .success
    · rw [if_pos h2] at h ⊢
      cases h
      rw [if_neg]
      rintro (a | a)
      · exact h2 a
      · exact hE ⟨_, _, _, _, a⟩
    · rw [if_neg h2] at h ⊢
      cases h
      simp
  · cases h

/-- `Tells` for a failure leaves exactly one announcement of a failure. -/
theorem one_failure {c : Code} {a : X} {l : List (EgEv X)} (hc : c ≠ .success) (h : Tells c a l) :
    (l.filter EgEv.isFailure).length = 1 := by
  unfold Tells at h
  rw [if_neg hc] at h
  obtain ⟨l', f, h1, h2, rfl⟩ := h
  have : l'.filter EgEv.isFailure = [] := by
    rw [List.filter_eq_nil_iff]
    intro e he
    obtain ⟨x, rfl⟩ := h1 e he
    simp [EgEv.isFailure]
  rw [List.filter_append, this]
  simp [h2]

/-- A tracker that always fails. -/
noncomputable def badEnv : CEnv ℤ where
  track := fun _ _ _ x => (.failure, x)
  refine := fun _ x _ => (.success, x)
  approx := fun _ _ _ => 0
  dist := fun _ _ => some 0
  dehomNorm := fun _ => 0
  polish := fun _ x _ => x
  mean := fun _ => 0
  cOverK := fun _ _ _ _ => 0
  lowRatio := fun _ _ => false
  sampNorm := fun _ => 0

/-- Settings for the examples. -/
noncomputable def cfgX (n : ℕ) : CCfg :=
  { n := n, factor := 1 / 2, minTrack := 1, finalTol := 1 / 2, level := 1, maxNorm := 1, failsafe := 5, needed := 2,
    cycleCutoff := 0, ratioCutoff := 0, maxRatio := 0, trackTol := 0 }

/-- **C178 fails for the Cauchy endgame**: a failed run that announces nothing. -/
theorem C178_silent : runC badEnv (cfgX 3) 1 0 0 0 = .done .failure
      { psT := [1, 1 / 2], psX := [0, 0], cT := [], cX := [], cyc := 0, latest := 0, prev := 0, normPrev := none,
        normLatest := none, k := 1, hist := [] } ∧ runNotesC badEnv (cfgX 3) 1 0 0 0 = [] := by
  have h0 : initialSamples badEnv.toEgEnv (cfgX 3).toEgCfg 1 0 0 0 = (.failure, [1, 1 / 2], [0, 0], 1) := by
    simp [initialSamples, initialLoop, cfgX, badEnv, nextTimePS]
  constructor
  · simp [runC, intoZone, h0, Res.andThen]
  · simp [runNotesC, zoneNotes, intoZone, h0, Res.thenNotes]

/-- **C178 fails for the power series endgame**: a failed run that announces two failures. -/
theorem C178_twice : ∃ s, runPS badEnv.toEgEnv (cfgX 1).toEgCfg 1 0 0 1 = .done .minTrackTimeReached s ∧
    runNotesPS badEnv.toEgEnv (cfgX 1).toEgCfg 1 0 0 1 = [.minTrackTime, .failure] := by
  have hi : initPS badEnv.toEgEnv (cfgX 1).toEgCfg 1 0 0 = .more
      { times := [1], samples := [0], latest := 0, prev := 0, err := some 1, normPrev := none, k := 2, hist := [0],
        acc := [1] } := by
    simp [initPS, initialSamples, initialLoop, refineAll, cfgX, badEnv]
  have hab : above (1 / 2 : ℝ) (some 1) := ⟨1, rfl, by norm_num⟩
  have hlt : ‖nextTimePS (1 / 2) 0 1 - 0‖ < (1 : ℝ) := by
    simp [nextTimePS]
    norm_num
  have ha : advancePS badEnv.toEgEnv (cfgX 1).toEgCfg 0
      { times := [1], samples := [0], latest := 0, prev := 0, err := some 1, normPrev := none, k := 2, hist := [0],
        acc := [1] } = some (.minTrackTimeReached,
      { times := [1], samples := [0], latest := 0, prev := 0, err := some 1, normPrev := none, k := 2, hist := [0],
        acc := [1] }) := by
    unfold advancePS
    dsimp only [List.getLast?_singleton, cfgX]
    exact if_pos hlt
  have hn : advanceNotesPS badEnv.toEgEnv (cfgX 1).toEgCfg 0
      { times := [1], samples := [0], latest := 0, prev := 0, err := some 1, normPrev := none, k := 2, hist := [0],
        acc := [1] } = [.minTrackTime] := by
    unfold advanceNotesPS
    dsimp only [List.getLast?_singleton, cfgX]
    exact if_pos hlt
  refine ⟨⟨[1], [0], 0, 0, some 1, none, 2, [0], [1]⟩, ?_, ?_⟩
  · rw [runPS, hi]
    dsimp only
    rw [loopPS, stepPS, if_pos (by exact hab), ha]
    dsimp only
    rw [if_pos (by simp)]
  · rw [runNotesPS, hi]
    dsimp only
    rw [loopNotesPS, stepNotesPS, stepPS, if_pos (by exact hab), if_pos (by exact hab), ha, hn]
    dsimp only
    rw [if_pos (by simp), if_pos (by simp)]
    rfl

theorem C178_refuted : ¬ C178_full := by
  rintro ⟨-, h⟩
  have := one_failure (by simp) (h badEnv (cfgX 3) 1 0 0 0 _ _ C178_silent.1)
  rw [C178_silent.2] at this
  exact absurd this (by decide)

/-- Neither half holds. -/
theorem C178_ps_refuted : ¬ ∀ (E : EgEnv ℤ) (cfg : EgCfg) (start target : ℂ) (x0 : ℤ) (fuel : ℕ) (c : Code) (s : PSt ℤ),
    runPS E cfg start target x0 fuel = .done c s → Tells c s.latest (runNotesPS E cfg start target x0 fuel) := by
  intro h
  obtain ⟨s, h1, h2⟩ := C178_twice
  have := one_failure (by simp) (h _ _ _ _ _ _ _ _ h1)
  rw [h2] at this
  exact absurd this (by decide)

/-- Witness for `C178_ps_partial` (success): the square root of `t`. -/
theorem root_run : ∃ (m : ℝ) (N : ℕ) (s : PSt (Unit → ℂ)), 0 < m ∧
    runPS (exactPS psCyc 1 rootPath rootDeriv) { psCfg with minTrack := m } (1 / 2 : ℝ) 0 (rootPath (1 / 2)) N =
      .done .success s := by
  obtain ⟨μ, N, hμ, h⟩ := C150_succeeds_partial rootPath_series psCfg psCyc 1 rfl rfl (by norm_num [psCfg]) (by norm_num [psCfg])
    (by norm_num [psCfg]) (by norm_num [psCyc]) (by norm_num [psCyc]) (by norm_num [psCfg]) (1 / 2) (by norm_num) (by norm_num)
  obtain ⟨s, hs⟩ := h μ le_rfl _ (exactPS_exact _ _ _ _ _) (Or.inl (by norm_num [psCfg]))
  exact ⟨μ, N, s, hμ, hs⟩

example : ∃ (m : ℝ) (N : ℕ) (s : PSt (Unit → ℂ)) (l : List (EgEv (Unit → ℂ))), Quiet l ∧
    runPS (exactPS psCyc 1 rootPath rootDeriv) { psCfg with minTrack := m } (1 / 2 : ℝ) 0 (rootPath (1 / 2)) N =
      .done .success s ∧
    runNotesPS (exactPS psCyc 1 rootPath rootDeriv) { psCfg with minTrack := m } (1 / 2 : ℝ) 0 (rootPath (1 / 2)) N =
      l ++ [.converged] := by
  obtain ⟨m, N, s, -, h⟩ := root_run
  obtain ⟨l, h1, h2, -⟩ := (C178_ps_partial _ _ _ _ _ _ _ _ h).1 rfl
  exact ⟨m, N, s, l, h1, h, h2⟩

/-- Witness for `C178_cauchy_partial` (success). -/
example : ∃ s l, runC idEnv ccfgD 1 0 () 1 = .done .success s ∧ Quiet l ∧
    runNotesC idEnv ccfgD 1 0 () 1 = l ++ [.converged] := by
  obtain ⟨s, h, -⟩ := C47_cauchy_refuted.2
  obtain ⟨l, h1, h2, -⟩ := ((C178_cauchy_partial _ _ _ _ _ _ _ _ h).1 rfl).1
  exact ⟨s, l, h, h1, h2⟩

end B2.Endgame
