/-
Invariants of the Cauchy endgame.
-/
import Verif.Endgame.Cauchy
import Verif.Endgame.PSProof
import Mathlib.Data.List.Chain
import Mathlib.Tactic.Ring
import Mathlib.Tactic.LinearCombination
import Mathlib.Analysis.Complex.Basic

set_option linter.unusedSimpArgs false

namespace B2.Endgame
open B2.Track (Code)

variable {X : Type}

/-- A code that a call of the tracker returned, or one of the endgame's own failure codes. -/
def FailCode (E : CEnv X) (c : Code) : Prop :=
  c ≠ .success ∧ (c = .minTrackTimeReached ∨ c = .cycleNumTooHigh ∨ ∃ k t t' x, (E.track k t t' x).1 = c)

/-- Everything but the sample data is the same. -/
structure Frame (s s' : CSt X) : Prop where
  latest : s'.latest = s.latest
  prev : s'.prev = s.prev
  normPrev : s'.normPrev = s.normPrev
  normLatest : s'.normLatest = s.normLatest
  hist : s'.hist = s.hist

theorem Frame.rfl' (s : CSt X) : Frame s s := ⟨rfl, rfl, rfl, rfl, rfl⟩

theorem Frame.trans {s s' s'' : CSt X} (h : Frame s s') (h' : Frame s' s'') : Frame s s'' :=
  ⟨h'.1.trans h.1, h'.2.trans h.2, h'.3.trans h.3, h'.4.trans h.4, h'.5.trans h.5⟩

/-- The power-series samples are present. -/
structure PSOk (s : CSt X) : Prop where
  len : s.psT.length = s.psX.length
  three : 3 ≤ s.psX.length

/-- The Cauchy samples form `cyc` whole loops of `n` steps. -/
structure CLoops (n : ℕ) (s : CSt X) : Prop where
  lenT : s.cT.length = s.cyc * n + 1
  lenX : s.cX.length = s.cyc * n + 1

/-- The times of the loops: the first is the most recent power-series time. -/
noncomputable def psDist (target : ℂ) (s : CSt X) : ℝ :=
  match s.psT.getLast? with
  | some t => ‖t - target‖
  | none => 0

theorem circleLoop_spec (E : CEnv X) (n : ℕ) (start target : ℂ) :
    ∀ rem ii k ts xs t x c ts' xs' k', circleLoop E n start target rem ii k ts xs t x = (c, ts', xs', k') →
      (c = .success → ts' = ts ++ (List.range' ii rem).map (circleTime n start target) ∧
        xs'.length = xs.length + rem) ∧
      (c ≠ .success → ∃ k t t' x, (E.track k t t' x).1 = c) ∧ ts <+: ts' ∧ xs <+: xs' := by
  intro rem
  induction rem with
  | zero =>
    intro ii k ts xs t x c ts' xs' k' h
    simp only [circleLoop, Prod.mk.injEq] at h
    obtain ⟨rfl, rfl, rfl, rfl⟩ := h
    exact ⟨fun _ => ⟨by simp, rfl⟩, fun h => absurd rfl h, List.prefix_rfl, List.prefix_rfl⟩
  | succ rem ih =>
    intro ii k ts xs t x c ts' xs' k' h
    rw [circleLoop] at h
    by_cases hs : (E.track k t (circleTime n start target ii) x).1 = .success
    · rw [if_pos hs] at h
      obtain ⟨h1, h2, h3, h4⟩ := ih _ _ _ _ _ _ _ _ _ _ h
      refine ⟨fun hc => ?_, h2, (List.prefix_append _ _).trans h3, (List.prefix_append _ _).trans h4⟩
      obtain ⟨h5, h6⟩ := h1 hc
      refine ⟨by rw [h5, List.range'_succ]; simp, ?_⟩
      rw [h6, List.length_append, List.length_singleton]; omega
    · rw [if_neg hs] at h
      simp only [Prod.mk.injEq] at h
      obtain ⟨rfl, rfl, rfl, rfl⟩ := h
      exact ⟨fun h => absurd h hs, fun _ => ⟨_, _, _, _, rfl⟩, List.prefix_rfl, List.prefix_rfl⟩

theorem circleTrack_spec (E : CEnv X) (cfg : CCfg) (target : ℂ) (s : CSt X) (hn : 3 ≤ cfg.n)
    (hl : CLoops cfg.n s) :
    ∃ c s' t, circleTrack E cfg target s = .done c s' ∧ s'.cyc = s.cyc + 1 ∧ Frame s s' ∧ s'.psT = s.psT ∧
      s'.psX = s.psX ∧ s.cT.getLast? = some t ∧
      (c = .success → CLoops cfg.n s' ∧
        s'.cT = s.cT ++ (List.range cfg.n).map (circleTime cfg.n t target)) ∧
      (c ≠ .success → ∃ k t t' x, (E.track k t t' x).1 = c) := by
  have h1 : s.cT ≠ [] := by intro h; have := hl.lenT; rw [h] at this; simp at this
  have h2 : s.cX ≠ [] := by intro h; have := hl.lenX; rw [h] at this; simp at this
  obtain ⟨t, ht⟩ : ∃ t, s.cT.getLast? = some t := ⟨_, List.getLast?_eq_some_getLast h1⟩
  obtain ⟨x, hx⟩ : ∃ x, s.cX.getLast? = some x := ⟨_, List.getLast?_eq_some_getLast h2⟩
  obtain ⟨c, ts', xs', k', hr⟩ : ∃ c ts' xs' k',
      circleLoop E cfg.n t target cfg.n 0 s.k s.cT s.cX t x = (c, ts', xs', k') := ⟨_, _, _, _, rfl⟩
  obtain ⟨h3, h4, -, -⟩ := circleLoop_spec E cfg.n t target _ _ _ _ _ _ _ _ _ _ _ hr
  refine ⟨c, { s with cT := ts', cX := xs', k := k', cyc := s.cyc + 1 }, t, ?_, rfl, ⟨rfl, rfl, rfl, rfl, rfl⟩, rfl,
    rfl, ht, fun hc => ?_, fun hc => h4 hc⟩
  · unfold circleTrack
    rw [if_neg (by omega), ht, hx]
    dsimp only
    rw [hr]
  · obtain ⟨h5, h6⟩ := h3 hc
    refine ⟨⟨?_, ?_⟩, by rw [List.range_eq_range']; exact h5⟩
    · show ts'.length = _
      rw [h5, List.length_append, hl.lenT, List.length_map, List.length_range']; ring
    · show xs'.length = _
      rw [h6, hl.lenX]; ring

theorem checkClosed_spec (E : CEnv X) (cfg : CCfg) (n : ℕ) (s : CSt X) (hl : CLoops n s) :
    Frame s (checkClosed E cfg s).2 ∧ CLoops n (checkClosed E cfg s).2 ∧ (checkClosed E cfg s).2.cyc = s.cyc ∧
      (checkClosed E cfg s).2.psT = s.psT ∧ (checkClosed E cfg s).2.psX = s.psX ∧
      (checkClosed E cfg s).2.cT = s.cT ∧
      ((checkClosed E cfg s).1 = true → ∃ a b, (checkClosed E cfg s).2.cX.head? = some a ∧
        (checkClosed E cfg s).2.cX.getLast? = some b ∧ below cfg.trackTol (E.dist a b)) := by
  have h1 : s.cT ≠ [] := by intro h; have := hl.lenT; rw [h] at this; simp at this
  have h2 : s.cX ≠ [] := by intro h; have := hl.lenX; rw [h] at this; simp at this
  unfold checkClosed
  match ht : s.cT, hx : s.cX, h1, h2 with
  | t :: ts, x :: xs, _, _ =>
    dsimp only
    split_ifs with hb
    · exact ⟨Frame.rfl' s, hl, rfl, rfl, rfl, ht, fun _ => ⟨x, _, by rw [hx]; rfl,
        by rw [hx]; exact List.getLast?_eq_some_getLast (by simp), hb⟩⟩
    · refine ⟨⟨rfl, rfl, rfl, rfl, rfl⟩, ⟨by simpa [ht] using hl.lenT, ?_⟩, rfl, rfl, rfl, rfl, fun h => ?_⟩
      · have := hl.lenX
        rw [hx] at this
        simp only [List.length_append, List.length_dropLast, List.length_cons, List.length_nil] at this ⊢
        omega
      · refine ⟨_, _, List.head?_eq_some_head (by simp), ?_, of_decide_eq_true h⟩
        simp

theorem closeLoop_spec (E : CEnv X) (cfg : CCfg) (target : ℂ) (hn : 3 ≤ cfg.n) :
    ∀ s : CSt X, CLoops cfg.n s → s.cyc ≤ cfg.failsafe + 1 →
      ∃ c s', closeLoop E cfg target s = .done c s' ∧ Frame s s' ∧ s'.psT = s.psT ∧ s'.psX = s.psX ∧
        (c = .success → CLoops cfg.n s' ∧ s.cyc ≤ s'.cyc ∧ s'.cyc ≤ cfg.failsafe + 1 ∧
          ∃ a b, s'.cX.head? = some a ∧ s'.cX.getLast? = some b ∧ below cfg.trackTol (E.dist a b)) ∧
        (c ≠ .success → FailCode E c) := by
  suffices H : ∀ m (s : CSt X), cfg.failsafe + 1 - s.cyc = m → CLoops cfg.n s → s.cyc ≤ cfg.failsafe + 1 →
      ∃ c s', closeLoop E cfg target s = .done c s' ∧ Frame s s' ∧ s'.psT = s.psT ∧ s'.psX = s.psX ∧
        (c = .success → CLoops cfg.n s' ∧ s.cyc ≤ s'.cyc ∧ s'.cyc ≤ cfg.failsafe + 1 ∧
          ∃ a b, s'.cX.head? = some a ∧ s'.cX.getLast? = some b ∧ below cfg.trackTol (E.dist a b)) ∧
        (c ≠ .success → FailCode E c) from fun s => H _ s rfl
  intro m
  induction m with
  | zero =>
    intro s hm hl hc
    obtain ⟨h1, h2, h3, h4, h5, h6, h7⟩ := checkClosed_spec E cfg cfg.n s hl
    rw [closeLoop]
    dsimp only
    by_cases hb : (checkClosed E cfg s).1 = true
    · rw [if_pos hb]
      exact ⟨_, _, rfl, h1, h4, h5, fun _ => ⟨h2, h3.ge, by omega, h7 hb⟩, fun h => absurd rfl h⟩
    · rw [if_neg hb, if_pos (by omega)]
      exact ⟨_, _, rfl, h1, h4, h5, fun h => by (cases h), fun _ => ⟨by simp, .inr (.inl rfl)⟩⟩
  | succ m ih =>
    intro s hm hl hc
    obtain ⟨h1, h2, h3, h4, h5, h6, h7⟩ := checkClosed_spec E cfg cfg.n s hl
    rw [closeLoop]
    dsimp only
    by_cases hb : (checkClosed E cfg s).1 = true
    · rw [if_pos hb]
      exact ⟨_, _, rfl, h1, h4, h5, fun _ => ⟨h2, h3.ge, by omega, h7 hb⟩, fun h => absurd rfl h⟩
    · rw [if_neg hb, if_neg (by omega)]
      have h8 : CLoops cfg.n { (checkClosed E cfg s).2 with cyc := s.cyc } :=
        ⟨by have := h2.lenT; rwa [h3] at this, by have := h2.lenX; rwa [h3] at this⟩
      obtain ⟨c, s', t, e, g1, g2, g3, g4, -, g6, g7⟩ := circleTrack_spec E cfg target _ hn h8
      rw [e]
      by_cases hcs : c = .success
      · subst hcs
        obtain ⟨g8, -⟩ := g6 rfl
        have g9 : CLoops cfg.n { s' with cyc := s.cyc + 1 } :=
          ⟨by have := g8.lenT; rwa [g1] at this, by have := g8.lenX; rwa [g1] at this⟩
        obtain ⟨c', s'', e', k1, k2, k3, k4, k5⟩ := ih { s' with cyc := s.cyc + 1 } (by simp only; omega) g9
          (by simp only; omega)
        refine ⟨c', s'', e', ?_, ?_, ?_, fun h => ?_, k5⟩
        · exact (h1.trans ⟨g2.1, g2.2, g2.3, g2.4, g2.5⟩).trans ⟨k1.1, k1.2, k1.3, k1.4, k1.5⟩
        · rw [k2]; exact g3.trans h4
        · rw [k3]; exact g4.trans h5
        · obtain ⟨a1, a2, a3, a4⟩ := k4 h
          exact ⟨a1, by simp only at a2; omega, a3, a4⟩
      · refine ⟨c, s', ?_, h1.trans ⟨g2.1, g2.2, g2.3, g2.4, g2.5⟩, g3.trans h4, g4.trans h5,
          fun h => absurd h hcs, fun h => ⟨h, .inr (.inr (g7 h))⟩⟩
        cases c <;> first | rfl | exact absurd rfl hcs

theorem samplesLoop_spec (E : CEnv X) (cfg : CCfg) (target : ℂ) (hn : 3 ≤ cfg.n) :
    ∀ s : CSt X, CLoops cfg.n s →
      ∃ c s', samplesLoop E cfg target s = .done c s' ∧ Frame s s' ∧ s'.psT = s.psT ∧ s'.psX = s.psX ∧
        (c = .success → CLoops cfg.n s' ∧ s.cyc < s'.cyc ∧ s'.cyc ≤ cfg.failsafe ∧
          ∃ a b, s'.cX.head? = some a ∧ s'.cX.getLast? = some b ∧ below cfg.trackTol (E.dist a b)) ∧
        (c ≠ .success → FailCode E c) := by
  suffices H : ∀ m (s : CSt X), cfg.failsafe - s.cyc = m → CLoops cfg.n s →
      ∃ c s', samplesLoop E cfg target s = .done c s' ∧ Frame s s' ∧ s'.psT = s.psT ∧ s'.psX = s.psX ∧
        (c = .success → CLoops cfg.n s' ∧ s.cyc < s'.cyc ∧ s'.cyc ≤ cfg.failsafe ∧
          ∃ a b, s'.cX.head? = some a ∧ s'.cX.getLast? = some b ∧ below cfg.trackTol (E.dist a b)) ∧
        (c ≠ .success → FailCode E c) from fun s => H _ s rfl
  intro m
  induction m with
  | zero =>
    intro s hm hl
    rw [samplesLoop, if_neg (by omega)]
    exact ⟨_, _, rfl, Frame.rfl' s, rfl, rfl, fun h => by (cases h), fun _ => ⟨by simp, .inr (.inl rfl)⟩⟩
  | succ m ih =>
    intro s hm hl
    rw [samplesLoop, if_pos (by omega)]
    obtain ⟨c, s', t, e, g1, g2, g3, g4, -, g6, g7⟩ := circleTrack_spec E cfg target s hn hl
    rw [e]
    by_cases hcs : c = .success
    · subst hcs
      obtain ⟨g8, -⟩ := g6 rfl
      obtain ⟨h1, h2, h3, h4, h5, h6, h7⟩ := checkClosed_spec E cfg cfg.n s' g8
      dsimp only
      by_cases hb : (checkClosed E cfg s').1 = true
      · rw [if_pos hb]
        exact ⟨_, _, rfl, g2.trans h1, h4.trans g3, h5.trans g4, fun _ => ⟨h2, by omega, by omega, h7 hb⟩,
          fun h => absurd rfl h⟩
      · rw [if_neg hb]
        have h8 : CLoops cfg.n { (checkClosed E cfg s').2 with cyc := s.cyc + 1 } :=
          ⟨by have := h2.lenT; rwa [h3, g1] at this, by have := h2.lenX; rwa [h3, g1] at this⟩
        obtain ⟨c', s'', e', k1, k2, k3, k4, k5⟩ := ih _ (by simp only; omega) h8
        refine ⟨c', s'', e', ?_, ?_, ?_, fun h => ?_, k5⟩
        · exact (g2.trans h1).trans ⟨k1.1, k1.2, k1.3, k1.4, k1.5⟩
        · rw [k2]; exact h4.trans g3
        · rw [k3]; exact h5.trans g4
        · obtain ⟨a1, a2, a3, a4⟩ := k4 h
          exact ⟨a1, by simp only at a2; omega, a3, a4⟩
    · refine ⟨c, s', ?_, g2, g3, g4, fun h => absurd h hcs, fun h => ⟨h, .inr (.inr (g7 h))⟩⟩
      cases c <;> first | rfl | exact absurd rfl hcs

/-- The rule for the next time moves towards the target by `1 - factor`. -/
theorem nextTimeC_sub (f : ℝ) (target t : ℂ) :
    nextTimeC f target t - target = ((1 - f : ℝ) : ℂ) * (t - target) := by
  unfold nextTimeC; push_cast; ring

theorem advanceC_spec (E : CEnv X) (cfg : CCfg) (target : ℂ) (s : CSt X) (h : PSOk s) :
    ∃ c s', advanceC E cfg target s = .done c s' ∧ Frame s s' ∧ PSOk s' ∧
      (c = .success → psDist target s' = |1 - cfg.factor| * psDist target s ∧ cfg.minTrack ≤ psDist target s' ∧
        s'.psT.length = s.psT.length ∧ ∃ t, s.psT.getLast? = some t ∧
          s'.psT = s.psT.tail ++ [nextTimeC cfg.factor target t]) ∧
      (c ≠ .success → FailCode E c) := by
  have h0 := h.three
  have h1 : s.psT ≠ [] := by intro h'; have := h.len; rw [h'] at this; simp at this; omega
  have h2 : s.psX ≠ [] := by intro h'; rw [h'] at h0; simp at h0
  obtain ⟨t, ht⟩ : ∃ t, s.psT.getLast? = some t := ⟨_, List.getLast?_eq_some_getLast h1⟩
  obtain ⟨x, hx⟩ : ∃ x, s.psX.getLast? = some x := ⟨_, List.getLast?_eq_some_getLast h2⟩
  unfold advanceC
  rw [ht, hx]
  dsimp only
  by_cases hm : ‖nextTimeC cfg.factor target t - target‖ < cfg.minTrack
  · rw [if_pos hm]
    exact ⟨_, s, rfl, Frame.rfl' s, h, fun h => by (cases h), fun _ => ⟨by simp, .inl rfl⟩⟩
  rw [if_neg hm]
  by_cases hs : (E.track s.k t (nextTimeC cfg.factor target t) x).1 = .success
  · rw [if_neg (by simpa using hs)]
    refine ⟨_, _, rfl, ⟨rfl, rfl, rfl, rfl, rfl⟩, ⟨?_, ?_⟩, fun _ => ⟨?_, ?_, ?_, t, rfl, rfl⟩, fun h => absurd rfl h⟩
    · simp [h.len]
    · simp; omega
    · simp only [psDist, ht, List.getLast?_append, List.getLast?_singleton, Option.some_or]
      rw [nextTimeC_sub, norm_mul, Complex.norm_real, Real.norm_eq_abs]
    · simp only [psDist, List.getLast?_append, List.getLast?_singleton, Option.some_or]
      exact not_lt.1 hm
    · have := h.len
      simp; omega
  · rw [if_pos hs]
    exact ⟨_, _, rfl, ⟨rfl, rfl, rfl, rfl, rfl⟩, ⟨h.len, h.three⟩, fun h => absurd h hs,
      fun _ => ⟨hs, .inr (.inr ⟨_, _, _, _, rfl⟩)⟩⟩

theorem andThen_fail {S : Type} (c : Code) (s : S) (f : S → Res S) (h : c ≠ .success) :
    (Res.done c s).andThen f = .done c s := by
  cases c <;> first | rfl | exact absurd rfl h

theorem andThen_ok {S : Type} (s : S) (f : S → Res S) : (Res.done .success s).andThen f = f s := rfl

theorem psDist_k (target : ℂ) (s : CSt X) (k : ℕ) : psDist target { s with k := k } = psDist target s := rfl

/-- Outcome of a phase that starts at distance `d0` from the target: out of fuel after at least `fuel` advances;
finished with `Q`; or a failure code. -/
def Out (E : CEnv X) (cfg : CCfg) (target : ℂ) (d0 : ℝ) (fuel : ℕ) (Q : CSt X → Prop) (r : Res (CSt X)) : Prop :=
  (∃ s' j, r = .more s' ∧ fuel ≤ j ∧ psDist target s' = |1 - cfg.factor| ^ j * d0 ∧
    (0 < fuel → cfg.minTrack ≤ psDist target s')) ∨
  (∃ s' j, r = .done .success s' ∧ PSOk s' ∧ psDist target s' = |1 - cfg.factor| ^ j * d0 ∧ Q s') ∨
  (∃ c s', r = .done c s' ∧ FailCode E c)

theorem Out.mono {E : CEnv X} {cfg : CCfg} {target : ℂ} {d d0 : ℝ} {j fuel : ℕ} {Q Q' : CSt X → Prop}
    {r : Res (CSt X)} (h : Out E cfg target d fuel Q r) (hd : d = |1 - cfg.factor| ^ j * d0)
    (hQ : ∀ s, Q s → Q' s) : Out E cfg target d0 fuel Q' r := by
  rcases h with ⟨s', i, h1, h2, h3, h4⟩ | ⟨s', i, h1, h2, h3, h4⟩ | h
  · exact .inl ⟨s', i + j, h1, by omega, by rw [h3, hd, pow_add]; ring, h4⟩
  · exact .inr (.inl ⟨s', i + j, h1, h2, by rw [h3, hd, pow_add]; ring, hQ _ h4⟩)
  · exact .inr (.inr h)

theorem clearAndSeed_loops (s : CSt X) (h : PSOk s) (n : ℕ) : CLoops n (clearAndSeed s) := by
  have h0 := h.three
  have h1 : s.psT ≠ [] := by intro h'; have := h.len; rw [h'] at this; simp at this; omega
  have h2 : s.psX ≠ [] := by intro h'; rw [h'] at h0; simp at h0
  constructor
  · simp [clearAndSeed, List.getLast?_eq_some_getLast h1]
  · simp [clearAndSeed, List.getLast?_eq_some_getLast h2]

theorem clearAndSeed_frame (s : CSt X) : Frame s (clearAndSeed s) := ⟨rfl, rfl, rfl, rfl, rfl⟩

theorem psDist_congr {target : ℂ} {s s' : CSt X} (h : s'.psT = s.psT) : psDist target s' = psDist target s := by
  unfold psDist; rw [h]

theorem initialLoops_spec (E : CEnv X) (cfg : CCfg) (target : ℂ) (hn : 3 ≤ cfg.n) :
    ∀ fuel (s : CSt X), PSOk s → Out E cfg target (psDist target s) fuel
      (fun s' => Frame s s' ∧ CLoops cfg.n s' ∧ 1 ≤ s'.cyc ∧ s'.cyc ≤ cfg.failsafe + 1)
      (initialLoops E cfg target fuel s) := by
  intro fuel
  induction fuel with
  | zero => intro s h; exact .inl ⟨s, 0, rfl, le_refl _, by simp, fun h => absurd h (lt_irrefl _)⟩
  | succ fuel ih =>
    intro s h
    rw [initialLoops]
    obtain ⟨c, s1, t, e, g1, g2, g3, g4, -, g6, g7⟩ :=
      circleTrack_spec E cfg target _ hn (clearAndSeed_loops s h cfg.n)
    rw [e]
    by_cases hc : c = .success
    swap
    · rw [andThen_fail _ _ _ hc]; exact .inr (.inr ⟨c, s1, rfl, hc, .inr (.inr (g7 hc))⟩)
    subst hc
    obtain ⟨g8, -⟩ := g6 rfl
    have hps : PSOk s1 := ⟨by rw [g3, g4]; exact h.len, by rw [g4]; exact h.three⟩
    have hd : psDist target s1 = psDist target s := psDist_congr g3
    have hcyc : s1.cyc = 1 := by rw [g1]; rfl
    rw [andThen_ok]
    split_ifs with hz
    · obtain ⟨c, s', e', k1, k2, k3, k4, k5⟩ := closeLoop_spec E cfg target hn s1 g8 (by omega)
      by_cases hc : c = .success
      · subst hc
        obtain ⟨a1, a2, a3, -⟩ := k4 rfl
        exact .inr (.inl ⟨s', 0, e', ⟨by rw [k2, k3]; exact hps.len, by rw [k3]; exact hps.three⟩,
          by rw [psDist_congr k2, hd]; simp, ((clearAndSeed_frame s).trans g2).trans k1, a1, by omega, a3⟩)
      · exact .inr (.inr ⟨c, s', e', k5 hc⟩)
    · obtain ⟨c, s2, e2, k1, k2, k3, k4⟩ := advanceC_spec E cfg target s1 hps
      rw [e2]
      by_cases hc : c = .success
      swap
      · rw [andThen_fail _ _ _ hc]; exact .inr (.inr ⟨c, s2, rfl, k4 hc⟩)
      subst hc
      obtain ⟨k5, k6, -⟩ := k3 rfl
      rw [andThen_ok]
      rcases ih s2 k2 with ⟨s', j, b1, b2, b3, b4⟩ | ⟨s', j, b1, b2, b3, b4, b5⟩ | hf
      · refine .inl ⟨s', j + 1, b1, by omega, by rw [b3, k5, hd]; ring, fun _ => ?_⟩
        rcases Nat.eq_zero_or_pos fuel with h0 | h0
        · subst h0
          simp only [initialLoops, Res.more.injEq] at b1
          rw [← b1]; exact k6
        · exact b4 h0
      · exact .inr (.inl ⟨s', j + 1, b1, b2, by rw [b3, k5, hd]; ring,
          (((clearAndSeed_frame s).trans g2).trans k1).trans b4, b5⟩)
      · exact .inr (.inr hf)

theorem ckOf_some (E : CEnv X) (s : CSt X) (h : PSOk s) : ∃ c, ckOf E s = some c := by
  have := h.three
  unfold ckOf
  match hx : s.psX with
  | a :: b :: c :: _ => exact ⟨_, rfl⟩
  | [] => rw [hx] at this; simp at this
  | [_] => rw [hx] at this; simp at this
  | [_, _] => rw [hx] at this; simp at this

theorem zoneWhile_spec (E : CEnv X) (cfg : CCfg) (target : ℂ) :
    ∀ fuel l (s : CSt X), PSOk s → Out E cfg target (psDist target s) fuel (fun s' => Frame s s')
      (zoneWhile E cfg target fuel l s) := by
  intro fuel
  induction fuel with
  | zero => intro l s h; exact .inl ⟨s, 0, rfl, le_refl _, by simp, fun h => absurd h (lt_irrefl _)⟩
  | succ fuel ih =>
    intro l s h
    rw [zoneWhile]
    split_ifs with hz
    · obtain ⟨c, s2, e2, k1, k2, k3, k4⟩ := advanceC_spec E cfg target s h
      rw [e2]
      by_cases hc : c = .success
      swap
      · rw [andThen_fail _ _ _ hc]; exact .inr (.inr ⟨c, s2, rfl, k4 hc⟩)
      subst hc
      obtain ⟨k5, k6, -⟩ := k3 rfl
      obtain ⟨v, hv⟩ := ckOf_some E s2 k2
      simp only [Res.andThen, hv]
      rcases ih (l.tail ++ [v]) { s2 with k := s2.k + 1 } ⟨k2.len, k2.three⟩ with ⟨s', j, b1, b2, b3, b4⟩ |
        ⟨s', j, b1, b2, b3, b4⟩ | hf
      · refine .inl ⟨s', j + 1, b1, by omega, by rw [b3, psDist_k, k5]; ring, fun _ => ?_⟩
        rcases Nat.eq_zero_or_pos fuel with h0 | h0
        · subst h0
          simp only [zoneWhile, Res.more.injEq] at b1
          rw [← b1]; exact k6
        · exact b4 h0
      · exact .inr (.inl ⟨s', j + 1, b1, b2, by rw [b3, psDist_k, k5]; ring,
          k1.trans ⟨b4.1, b4.2, b4.3, b4.4, b4.5⟩⟩)
      · exact .inr (.inr hf)
    · exact .inr (.inl ⟨s, 0, rfl, h, by simp, Frame.rfl' s⟩)

theorem zoneFor_spec (E : CEnv X) (cfg : CCfg) (target : ℂ) (fuel : ℕ) (f : List ℝ → CSt X → Res (CSt X))
    (hf : ∀ l s, PSOk s → Out E cfg target (psDist target s) fuel (fun s' => Frame s s') (f l s)) :
    ∀ rem l (s : CSt X), PSOk s → Out E cfg target (psDist target s) fuel (fun s' => Frame s s')
      (zoneFor E cfg target rem l s f) := by
  intro rem
  induction rem with
  | zero => intro l s h; exact hf l s h
  | succ rem ih =>
    intro l s h
    rw [zoneFor]
    obtain ⟨c, s2, e2, k1, k2, k3, k4⟩ := advanceC_spec E cfg target s h
    rw [e2]
    by_cases hc : c = .success
    swap
    · rw [andThen_fail _ _ _ hc]; exact .inr (.inr ⟨c, s2, rfl, k4 hc⟩)
    subst hc
    obtain ⟨k5, k6, -⟩ := k3 rfl
    obtain ⟨v, hv⟩ := ckOf_some E s2 k2
    simp only [Res.andThen, hv]
    refine (ih (l ++ [v]) { s2 with k := s2.k + 1 } ⟨k2.len, k2.three⟩).mono (j := 1) ?_ ?_
    · rw [psDist_k, k5]; simp
    · intro s' b4
      exact k1.trans ⟨b4.1, b4.2, b4.3, b4.4, b4.5⟩

/-- The distance of the last initial sample from the target. -/
noncomputable def dist0 (cfg : CCfg) (start target : ℂ) : ℝ :=
  ‖(nextTimePS cfg.factor target)^[cfg.n - 1] start - target‖

theorem initialLoop_last (E : EgEnv X) (cfg : EgCfg) (target : ℂ) :
    ∀ rem k ts xs t x, ts.getLast? = some t → ∀ ts' xs' k',
      initialLoop E cfg target rem k ts xs t x = (.success, ts', xs', k') →
      ts'.getLast? = some ((nextTimePS cfg.factor target)^[rem] t) := by
  intro rem
  induction rem with
  | zero =>
    intro k ts xs t x ht ts' xs' k' h
    simp only [initialLoop, Prod.mk.injEq, true_and] at h
    rw [← h.1, ht]; rfl
  | succ rem ih =>
    intro k ts xs t x ht ts' xs' k' h
    rw [initialLoop] at h
    split_ifs at h with hs
    · rw [Function.iterate_succ_apply]
      exact ih _ _ _ _ _ (by simp) _ _ _ h
    · simp only [Prod.mk.injEq] at h
      exact absurd h.1 hs

theorem intoZone_spec (E : CEnv X) (cfg : CCfg) (start target : ℂ) (x0 : X) (fuel : ℕ) (s : CSt X)
    (hn : 3 ≤ cfg.n) :
    Out E cfg target (dist0 cfg start target) fuel (fun s' => Frame s s')
      (intoZone E cfg start target x0 fuel s) := by
  obtain ⟨c, ts, xs, k, hr⟩ : ∃ c ts xs k,
      initialSamples E.toEgEnv cfg.toEgCfg start target x0 s.k = (c, ts, xs, k) := ⟨_, _, _, _, rfl⟩
  obtain ⟨a1, a2, a3, a4, a5, a6, a7⟩ := initialLoop_spec E.toEgEnv cfg.toEgCfg start target (fun _ _ => True)
    ⟨fun _ _ _ _ _ _ => trivial, fun _ _ _ _ => trivial⟩ (cfg.n - 1) s.k [start] [x0]
    start x0 [] [] rfl rfl (.cons trivial .nil) (by simp) rfl c ts xs k hr
  unfold intoZone
  rw [hr]
  dsimp only
  by_cases hc : c = .success
  swap
  · rw [if_pos hc]
    exact .inr (.inr ⟨c, _, rfl, hc, .inr (.inr (a7 hc))⟩)
  subst hc
  rw [if_neg (by simp)]
  obtain ⟨b1, -⟩ := a6 rfl
  have hlast := initialLoop_last E.toEgEnv cfg.toEgCfg target (cfg.n - 1) s.k [start] [x0] start x0 (by simp) _ _ _ hr
  have hps : PSOk ({ s with psT := ts, psX := xs, k := k } : CSt X) := by
    refine ⟨a1, ?_⟩
    rw [List.length_singleton] at b1
    simp only
    omega
  obtain ⟨v, hv⟩ := ckOf_some E _ hps
  rw [hv]
  dsimp only
  refine (zoneFor_spec E cfg target fuel _ (zoneWhile_spec E cfg target fuel) cfg.needed [v]
    { s with psT := ts, psX := xs, k := k + 1 } ⟨hps.len, hps.three⟩).mono (j := 0) ?_ ?_
  · simp only [psDist, hlast, dist0, pow_zero, one_mul]
  · intro s' h
    exact ⟨h.1, h.2, h.3, h.4, h.5⟩

end B2.Endgame
