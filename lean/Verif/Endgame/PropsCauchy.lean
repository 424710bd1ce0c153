/-
Cauchy endgame: C47 (convergence test), C49 (sample times), C52 (loops), C53 (security), C75 (termination).
-/
import Verif.Endgame.CauchyProof
import Verif.Endgame.PropsPS2
import Mathlib.Tactic.IntervalCases

set_option linter.unusedSimpArgs false

namespace B2.Endgame
open B2.Track (Code)

variable {X : Type}

/-! ### The main loop -/

/-- Invariant at the head of the main loop. -/
structure LInv (E : CEnv X) (cfg : CCfg) (x0 : X) (s : CSt X) : Prop where
  ps : PSOk s
  loops : CLoops cfg.n s
  pos : 1 ≤ s.cyc
  bound : s.cyc ≤ cfg.failsafe + 1
  prevEq : (x0 :: s.hist).getLast? = some s.prev
  norm : cfg.level < 0 → s.normPrev = some (E.dehomNorm s.prev)
  sec : cfg.level < 0 → (x0 :: s.hist).IsChain (NotBothLarge E.toEgEnv cfg.toEgCfg)

/-- How the main loop can end. -/
inductive CEnded (E : CEnv X) (cfg : CCfg) (x0 : X) : Res (CSt X) → Prop
  | converged (s h a r) (hh : s.hist = h ++ [s.latest]) (ha : (x0 :: h).getLast? = some a)
      (hd : E.dist s.latest a = some r) (hr : r < cfg.finalTol)
      (hs : cfg.level < 0 → (x0 :: h).IsChain (NotBothLarge E.toEgEnv cfg.toEgCfg))
      (hc : s.cyc ≤ cfg.failsafe + 1) :
      CEnded E cfg x0 (.done .success s)
  | security (s h a) (hl : cfg.level < 0) (hh : s.hist = h ++ [s.latest]) (ha : (x0 :: h).getLast? = some a)
      (h1 : cfg.maxNorm < E.dehomNorm a) (h2 : cfg.maxNorm < E.dehomNorm s.latest)
      (h3 : (x0 :: h).IsChain (NotBothLarge E.toEgEnv cfg.toEgCfg)) :
      CEnded E cfg x0 (.done .securityMaxNormReached s)
  | failed (c s) (h : FailCode E c) (hs : cfg.level < 0 → (x0 :: s.hist).IsChain (NotBothLarge E.toEgEnv cfg.toEgCfg)) :
      CEnded E cfg x0 (.done c s)

theorem loopC_spec (E : CEnv X) (cfg : CCfg) (target : ℂ) (x0 : X) (hn : 3 ≤ cfg.n) (hlev : cfg.level ≤ 0) :
    ∀ fuel (s : CSt X), LInv E cfg x0 s →
      (∃ s' j, loopC E cfg target fuel s = .more s' ∧ LInv E cfg x0 s' ∧ fuel ≤ j ∧
        psDist target s' = |1 - cfg.factor| ^ j * psDist target s ∧ (0 < fuel → cfg.minTrack ≤ psDist target s')) ∨
      CEnded E cfg x0 (loopC E cfg target fuel s) := by
  intro fuel
  induction fuel with
  | zero => intro s h; exact .inl ⟨s, 0, rfl, h, le_refl _, by simp, fun h => absurd h (lt_irrefl _)⟩
  | succ fuel ih =>
    intro s h
    obtain ⟨s1, e1, f0, f1, f2, f3, f4, f5, f6⟩ : ∃ s1, cauchyApprox E cfg s = .done .success s1 ∧
        s1.hist = s.hist ++ [s1.latest] ∧ s1.prev = s.prev ∧ s1.normPrev = s.normPrev ∧ s1.psT = s.psT ∧
        s1.psX = s.psX ∧ s1.normLatest = s.normLatest ∧ s1.cyc = s.cyc := by
      unfold cauchyApprox
      rw [if_neg (not_not.2 h.loops.lenX)]
      exact ⟨_, rfl, rfl, rfl, rfl, rfl, rfl, rfl, rfl⟩
    rw [loopC, e1, andThen_ok]
    have hnew : (x0 :: s1.hist).getLast? = some s1.latest := by
      rw [f0, ← List.cons_append, List.getLast?_concat]
    -- after the two tests
    have rest : ∀ s2 : CSt X, s2.latest = s1.latest → s2.hist = s1.hist → s2.psT = s1.psT → s2.psX = s1.psX →
        (cfg.level < 0 → s2.normLatest = some (E.dehomNorm s1.latest)) →
        (cfg.level < 0 → NotBothLarge E.toEgEnv cfg.toEgCfg s.prev s1.latest) →
        (∃ s' j, ((advanceC E cfg target { s2 with prev := s2.latest, normPrev := s2.normLatest }).andThen fun s3 =>
          (cauchySamples E cfg target s3).andThen (loopC E cfg target fuel)) = .more s' ∧ LInv E cfg x0 s' ∧
          fuel + 1 ≤ j ∧ psDist target s' = |1 - cfg.factor| ^ j * psDist target s ∧
            (0 < fuel + 1 → cfg.minTrack ≤ psDist target s')) ∨
        CEnded E cfg x0 ((advanceC E cfg target { s2 with prev := s2.latest, normPrev := s2.normLatest }).andThen
          fun s3 => (cauchySamples E cfg target s3).andThen (loopC E cfg target fuel)) := by
      intro s2 a1 a2 a3 a4 a5 a6
      have hsec : cfg.level < 0 → (x0 :: s1.hist).IsChain (NotBothLarge E.toEgEnv cfg.toEgCfg) := by
        intro hl
        rw [f0, ← List.cons_append]
        refine (h.sec hl).append (by simp) ?_
        intro p hp q hq
        rw [h.prevEq] at hp
        simp only [Option.mem_some_iff] at hp
        simp only [List.head?_cons, Option.mem_some_iff] at hq
        rw [← hp, ← hq]; exact a6 hl
      have hps : PSOk ({ s2 with prev := s2.latest, normPrev := s2.normLatest } : CSt X) :=
        ⟨by show s2.psT.length = s2.psX.length; rw [a3, a4, f3, f4]; exact h.ps.len,
          by show 3 ≤ s2.psX.length; rw [a4, f4]; exact h.ps.three⟩
      obtain ⟨c, s3, e3, k1, k2, k3, k4⟩ := advanceC_spec E cfg target _ hps
      rw [e3]
      have h3 : s3.hist = s1.hist := k1.hist.trans a2
      by_cases hc : c = .success
      swap
      · rw [andThen_fail _ _ _ hc]
        exact .inr (.failed c s3 (k4 hc) (by rw [h3]; exact hsec))
      subst hc
      obtain ⟨k5, k6, -⟩ := k3 rfl
      rw [andThen_ok]
      obtain ⟨c, s4, e4, m1, m2, m3, m4, m5⟩ :=
        samplesLoop_spec E cfg target hn (clearAndSeed s3) (clearAndSeed_loops s3 k2 cfg.n)
      unfold cauchySamples
      rw [e4]
      have h4 : s4.hist = s1.hist := m1.hist.trans h3
      by_cases hc : c = .success
      swap
      · rw [andThen_fail _ _ _ hc]
        exact .inr (.failed c s4 (m5 hc) (by rw [h4]; exact hsec))
      subst hc
      rw [andThen_ok]
      obtain ⟨b1, b2, b3, -⟩ := m4 rfl
      have hprev : s4.prev = s1.latest := (m1.prev.trans k1.prev).trans a1
      have hd : psDist target s4 = |1 - cfg.factor| * psDist target s := by
        rw [psDist_congr (s := s3) m2, k5]
        have : psDist target ({ s2 with prev := s2.latest, normPrev := s2.normLatest } : CSt X) = psDist target s :=
          psDist_congr (by show s2.psT = s.psT; rw [a3, f3])
        rw [this]
      have hI : LInv E cfg x0 s4 := {
        ps := ⟨by rw [m2, m3]; exact k2.len, by rw [m3]; exact k2.three⟩
        loops := b1
        pos := by omega
        bound := by omega
        prevEq := by rw [h4, hprev]; exact hnew
        norm := fun hl => by
          have : s4.normPrev = s2.normLatest := m1.normPrev.trans k1.normPrev
          rw [this, a5 hl, hprev]
        sec := fun hl => by rw [h4]; exact hsec hl }
      rcases ih s4 hI with ⟨s', j, c1, c2, c3, c4, c5⟩ | he
      · refine .inl ⟨s', j + 1, c1, c2, by omega, by rw [c4, hd]; ring, fun _ => ?_⟩
        rcases Nat.eq_zero_or_pos fuel with h0 | h0
        · subst h0
          simp only [loopC, Res.more.injEq] at c1
          rw [← c1, psDist_congr (s := s3) m2]; exact k6
        · exact c5 h0
      · exact .inr he
    by_cases hb : below cfg.finalTol (E.dist s1.latest s1.prev)
    · have : judge E cfg s1 = .inl (.done .success s1) := by unfold judge; rw [if_pos hb]
      rw [this]
      obtain ⟨r, hr1, hr2⟩ := hb
      exact .inr (.converged s1 s.hist s.prev r f0 h.prevEq (by rw [← f1]; exact hr1) hr2 h.sec
        (by rw [f6]; exact h.bound))
    · by_cases hl : cfg.level = 0
      · have : judge E cfg s1 = .inr s1 := by unfold judge; rw [if_neg hb, if_neg (by simpa using hl)]
        rw [this]
        exact rest s1 rfl rfl rfl rfl (fun h => by omega) (fun h => by omega)
      · have hl' : cfg.level < 0 := by omega
        by_cases hbig : cfg.maxNorm < E.dehomNorm s.prev ∧ cfg.maxNorm < E.dehomNorm s1.latest
        · have : judge E cfg s1 = .inl (.done .securityMaxNormReached
              { s1 with normLatest := some (E.dehomNorm s1.latest) }) := by
            unfold judge
            rw [if_neg hb, if_pos hl]
            dsimp only
            rw [f2, h.norm hl']
            dsimp only
            rw [if_pos hbig]
          rw [this]
          exact .inr (.security _ s.hist s.prev hl' f0 h.prevEq hbig.1 hbig.2 (h.sec hl'))
        · have : judge E cfg s1 = .inr { s1 with normLatest := some (E.dehomNorm s1.latest) } := by
            unfold judge
            rw [if_neg hb, if_pos hl]
            dsimp only
            rw [f2, h.norm hl']
            dsimp only
            rw [if_neg hbig]
          rw [this]
          exact rest _ rfl rfl rfl rfl (fun _ => rfl) (fun _ => hbig)

/-- The state in which `RunImpl` starts. -/
def c0 (x0 : X) : CSt X :=
  { psT := [], psX := [], cT := [], cX := [], cyc := 0, latest := x0, prev := x0, normPrev := none,
    normLatest := none, k := 0, hist := [] }

/-- The two phases before the main loop. -/
theorem runC_start (E : CEnv X) (cfg : CCfg) (start target : ℂ) (x0 : X) (hn : 3 ≤ cfg.n) (fuel : ℕ) :
    (∃ s' j, runC E cfg start target x0 fuel = .more s' ∧ fuel ≤ j ∧
        psDist target s' = |1 - cfg.factor| ^ j * dist0 cfg start target ∧
        (0 < fuel → cfg.minTrack ≤ psDist target s')) ∨
    (∃ c s', runC E cfg start target x0 fuel = .done c s' ∧ FailCode E c) ∨
    (∃ s j, PSOk s ∧ Frame (c0 x0) s ∧ CLoops cfg.n s ∧ 1 ≤ s.cyc ∧ s.cyc ≤ cfg.failsafe + 1 ∧
      psDist target s = |1 - cfg.factor| ^ j * dist0 cfg start target ∧
      runC E cfg start target x0 fuel = loopC E cfg target fuel
        (if cfg.level ≤ 0 then { s with normPrev := some (E.dehomNorm s.prev) } else s)) := by
  unfold runC
  dsimp only
  rcases intoZone_spec E cfg start target x0 fuel (c0 x0) hn with ⟨s, j, e, h1, h2, h3⟩ | ⟨s, j, e, h1, h2, h3⟩ |
    ⟨c, s, e, h1⟩ <;> unfold c0 at e <;> rw [e]
  · exact .inl ⟨s, j, rfl, h1, h2, h3⟩
  · rw [andThen_ok]
    rcases initialLoops_spec E cfg target hn fuel s h1 with ⟨s', i, e', g1, g2, g3⟩ |
      ⟨s', i, e', g1, g2, g3, g4, g5, g6⟩ | ⟨c, s', e', g1⟩ <;> rw [e']
    · exact .inl ⟨s', i + j, rfl, by omega, by rw [g2, h2]; ring, g3⟩
    · exact .inr (.inr ⟨s', i + j, g1, h3.trans g3, g4, g5, g6, by rw [g2, h2]; ring, rfl⟩)
    · exact .inr (.inl ⟨c, s', andThen_fail _ _ _ g1.1, g1⟩)
  · exact .inr (.inl ⟨c, s, andThen_fail _ _ _ h1.1, h1⟩)

theorem runC_spec (E : CEnv X) (cfg : CCfg) (start target : ℂ) (x0 : X) (hn : 3 ≤ cfg.n) (hlev : cfg.level ≤ 0)
    (fuel : ℕ) :
    (∃ s' j, runC E cfg start target x0 fuel = .more s' ∧ fuel ≤ j ∧
        psDist target s' = |1 - cfg.factor| ^ j * dist0 cfg start target ∧
        (0 < fuel → cfg.minTrack ≤ psDist target s')) ∨
    (∃ c s', runC E cfg start target x0 fuel = .done c s' ∧ FailCode E c) ∨
    CEnded E cfg x0 (runC E cfg start target x0 fuel) := by
  rcases runC_start E cfg start target x0 hn fuel with h | h | ⟨s, j, h1, h2, h3, h4, h5, h6, e⟩
  · exact .inl h
  · exact .inr (.inl h)
  · rw [e, if_pos hlev]
    have hh : s.hist = [] := h2.hist
    have hp : s.prev = x0 := h2.prev
    have hI : LInv E cfg x0 { s with normPrev := some (E.dehomNorm s.prev) } := {
      ps := ⟨h1.len, h1.three⟩
      loops := ⟨h3.lenT, h3.lenX⟩
      pos := h4
      bound := h5
      prevEq := by simp [hh, hp]
      norm := fun _ => rfl
      sec := fun _ => by simp [hh] }
    rcases loopC_spec E cfg target x0 hn hlev fuel _ hI with ⟨s', i, g1, -, g2, g3, g4⟩ | he
    · exact .inl ⟨s', i + j, g1, by omega, by
        rw [g3, show psDist target { s with normPrev := some (E.dehomNorm s.prev) } = psDist target s from rfl, h6]
        ring, g4⟩
    · exact .inr (.inr he)

/-! ### C75: termination -/

/-- **C75**: with at least three sample points and security level at most zero, the Cauchy endgame stops for every
behaviour of the tracker, every start and target time: success, a tracking failure, too many loops, the security
cut-off or the minimum track time; it throws no exception.  The number of turns of each of its loops is at most any
`N ≥ 1` with `|1 - factor| ^ N` times the distance of the last initial sample from the target below the minimum track
time. -/
theorem C75_bound (E : CEnv X) (cfg : CCfg) (start target : ℂ) (x0 : X) (hn : 3 ≤ cfg.n) (hlev : cfg.level ≤ 0)
    (hf : |1 - cfg.factor| ≤ 1) (N : ℕ) (hN : 0 < N)
    (hb : |1 - cfg.factor| ^ N * ‖(nextTimePS cfg.factor target)^[cfg.n - 1] start - target‖ < cfg.minTrack) :
    ∃ c s, runC E cfg start target x0 N = .done c s := by
  rcases runC_spec E cfg start target x0 hn hlev N with ⟨s', j, -, h2, h3, h4⟩ | ⟨c, s, e, -⟩ | he
  · exfalso
    have h5 := h4 hN
    rw [h3] at h5
    have h6 : |1 - cfg.factor| ^ j ≤ |1 - cfg.factor| ^ N := pow_le_pow_of_le_one (abs_nonneg _) hf h2
    have h7 := mul_le_mul_of_nonneg_right h6 (norm_nonneg ((nextTimePS cfg.factor target)^[cfg.n - 1] start - target))
    unfold dist0 at h5
    linarith
  · exact ⟨c, s, e⟩
  · obtain ⟨r, hr⟩ : ∃ r, runC E cfg start target x0 N = r := ⟨_, rfl⟩
    rw [hr] at he ⊢
    cases he <;> exact ⟨_, _, rfl⟩

theorem C75 (E : CEnv X) (cfg : CCfg) (start target : ℂ) (x0 : X) (hn : 3 ≤ cfg.n) (hlev : cfg.level ≤ 0)
    (hf : 0 < cfg.factor) (hf1 : cfg.factor < 2) (hm : 0 < cfg.minTrack) :
    ∃ N c s, runC E cfg start target x0 N = .done c s := by
  have h1 : |1 - cfg.factor| < 1 := by rw [abs_lt]; constructor <;> linarith
  have hpos : 0 < dist0 cfg start target + 1 := by unfold dist0; positivity
  obtain ⟨N, hN⟩ := exists_pow_lt_of_lt_one (div_pos hm hpos) h1
  rw [lt_div_iff₀ hpos] at hN
  refine ⟨N + 1, C75_bound E cfg start target x0 hn hlev h1.le (N + 1) (by omega) ?_⟩
  have h2 : |1 - cfg.factor| ^ (N + 1) ≤ |1 - cfg.factor| ^ N := pow_le_pow_of_le_one (abs_nonneg _) h1.le (by omega)
  have h3 : 0 ≤ |1 - cfg.factor| ^ (N + 1) := by positivity
  unfold dist0 at hN
  nlinarith [norm_nonneg ((nextTimePS cfg.factor target)^[cfg.n - 1] start - target)]

/-! ### C47 -/

/-- **C47, full statement for the Cauchy endgame**: on success, two successive approximations differ by at most the
final tolerance and the second is the one returned. -/
def C47_cauchy_full : Prop :=
  ∀ (X : Type) (E : CEnv X) (cfg : CCfg) (start target : ℂ) (x0 : X) (fuel : ℕ) (s : CSt X), 3 ≤ cfg.n →
    cfg.level ≤ 0 → runC E cfg start target x0 fuel = .done .success s →
    ∃ (h : List X) (a b : X) (r : ℝ), s.hist = h ++ [a, b] ∧ s.latest = b ∧ E.dist b a = some r ∧ r ≤ cfg.finalTol

/-- **C47, partial (Cauchy)**: on success, the returned approximation is the latest, and it is a number within the final
tolerance of the one before it, or, when only one was computed, of the point the endgame was started from.  Missing:
in that last case there are no two approximations that agree; and positive security levels, where the run reads an
uninitialised variable unless it converges at once. -/
theorem C47_cauchy_partial (E : CEnv X) (cfg : CCfg) (start target : ℂ) (x0 : X) (fuel : ℕ) (s : CSt X)
    (hn : 3 ≤ cfg.n) (hlev : cfg.level ≤ 0) (h : runC E cfg start target x0 fuel = .done .success s) :
    ∃ (hh : List X) (a b : X) (r : ℝ), s.hist = hh ++ [b] ∧ s.latest = b ∧ (x0 :: hh).getLast? = some a ∧
      E.dist b a = some r ∧ r < cfg.finalTol := by
  rcases runC_spec E cfg start target x0 hn hlev fuel with ⟨s', j, e, -⟩ | ⟨c, s', e, hf⟩ | he
  · rw [h] at e; cases e
  · rw [h] at e; cases e; exact absurd rfl hf.1
  · rw [h] at he
    cases he with
    | converged _ hh a r h1 h2 h3 h4 => exact ⟨hh, a, s.latest, r, h1, rfl, h2, h3, h4⟩
    | failed _ _ hf => exact absurd rfl hf.1

/-- Everything succeeds and nothing ever changes. -/
noncomputable def idEnv : CEnv Unit where
  track := fun _ _ _ x => (.success, x)
  refine := fun _ x _ => (.success, x)
  approx := fun _ _ _ => ()
  dist := fun _ _ => some 0
  dehomNorm := fun _ => 1
  polish := fun _ x _ => x
  mean := fun _ => ()
  cOverK := fun _ _ _ _ => 1
  lowRatio := fun _ _ => false
  sampNorm := fun _ => 0

/-- Default settings (config.hpp lines 96-135). -/
noncomputable def ccfgD : CCfg :=
  { n := 3, factor := 1 / 2, minTrack := 1 / 10 ^ 100, finalTol := 1 / 10 ^ 11, level := 0, maxNorm := 10 ^ 4,
    failsafe := 250, needed := 3, cycleCutoff := 1 / 10 ^ 8, ratioCutoff := 1 / 10 ^ 14, maxRatio := 1 / 2,
    trackTol := 1 / 10 ^ 5 }

/-! ### Environments in which everything goes smoothly, for the counterexamples -/

/-- Every track succeeds, every loop is closed after one turn, the samples look flat and the estimates stable. -/
structure Smooth (E : CEnv X) (cfg : CCfg) (target : ℂ) : Prop where
  n : 3 ≤ cfg.n
  track : ∀ k t t' x, (E.track k t t' x).1 = .success
  closed : ∀ a b, below cfg.trackTol (E.dist a b)
  safe : 0 < cfg.failsafe
  flat : ∀ s, zoneTest E cfg target s
  ratio : ∀ a b, E.lowRatio a b = false

theorem advanceC_ok (E : CEnv X) (cfg : CCfg) (target : ℂ) (hE : ∀ k t t' x, (E.track k t t' x).1 = .success)
    (s : CSt X) (h : PSOk s) (hm : cfg.minTrack ≤ |1 - cfg.factor| * psDist target s) :
    ∃ s', advanceC E cfg target s = .done .success s' ∧ Frame s s' ∧ PSOk s' ∧
      psDist target s' = |1 - cfg.factor| * psDist target s := by
  obtain ⟨c, s', e, h1, h2, h3, -⟩ := advanceC_spec E cfg target s h
  have h0 := h.three
  have g1 : s.psT ≠ [] := by intro h'; have := h.len; rw [h'] at this; simp at this; omega
  have g2 : s.psX ≠ [] := by intro h'; rw [h'] at h0; simp at h0
  obtain ⟨t, ht⟩ : ∃ t, s.psT.getLast? = some t := ⟨_, List.getLast?_eq_some_getLast g1⟩
  obtain ⟨x, hx⟩ : ∃ x, s.psX.getLast? = some x := ⟨_, List.getLast?_eq_some_getLast g2⟩
  have hc : c = .success := by
    unfold advanceC at e
    rw [ht, hx] at e
    dsimp only at e
    rw [if_neg, if_neg (by simpa using hE _ _ _ _)] at e
    · cases e; rfl
    · rw [nextTimeC_sub, norm_mul, Complex.norm_real, Real.norm_eq_abs]
      simp only [psDist, ht] at hm
      exact not_lt.2 hm
  subst hc
  exact ⟨s', e, h1, h2, (h3 rfl).1⟩

theorem circleTrack_ok (E : CEnv X) (cfg : CCfg) (target : ℂ) (hn : 3 ≤ cfg.n)
    (hE : ∀ k t t' x, (E.track k t t' x).1 = .success) (s : CSt X) (hl : CLoops cfg.n s) :
    ∃ s', circleTrack E cfg target s = .done .success s' ∧ s'.cyc = s.cyc + 1 ∧ Frame s s' ∧ s'.psT = s.psT ∧
      s'.psX = s.psX ∧ CLoops cfg.n s' := by
  obtain ⟨c, s', t, e, h1, h2, h3, h4, -, h6, h7⟩ := circleTrack_spec E cfg target s hn hl
  have hc : c = .success := by
    by_contra hc
    obtain ⟨k, t, t', x, h⟩ := h7 hc
    exact hc (h.symm.trans (hE k t t' x))
  subst hc
  exact ⟨s', e, h1, h2, h3, h4, (h6 rfl).1⟩

theorem checkClosed_ok (E : CEnv X) (cfg : CCfg) (target : ℂ) (h : Smooth E cfg target) (s : CSt X)
    (hl : CLoops cfg.n s) : checkClosed E cfg s = (true, s) := by
  have h1 : s.cT ≠ [] := by intro h; have := hl.lenT; rw [h] at this; simp at this
  have h2 : s.cX ≠ [] := by intro h; have := hl.lenX; rw [h] at this; simp at this
  unfold checkClosed
  match ht : s.cT, hx : s.cX, h1, h2 with
  | t :: ts, x :: xs, _, _ =>
    dsimp only
    rw [if_pos (h.closed _ _)]

theorem initialLoops_ok (E : CEnv X) (cfg : CCfg) (target : ℂ) (h : Smooth E cfg target) (fuel : ℕ) (s : CSt X)
    (hs : PSOk s) : ∃ s', initialLoops E cfg target (fuel + 1) s = .done .success s' ∧ Frame s s' ∧ PSOk s' ∧
      CLoops cfg.n s' ∧ psDist target s' = psDist target s := by
  obtain ⟨s', e, h1, h2, h3, h4, h5⟩ := circleTrack_ok E cfg target h.n h.track _ (clearAndSeed_loops s hs cfg.n)
  refine ⟨s', ?_, (clearAndSeed_frame s).trans h2, ⟨by rw [h3, h4]; exact hs.len, by rw [h4]; exact hs.three⟩, h5,
    psDist_congr h3⟩
  rw [initialLoops, e, andThen_ok, if_pos (h.flat _), closeLoop, checkClosed_ok E cfg target h s' h5]
  rfl

theorem cauchySamples_ok (E : CEnv X) (cfg : CCfg) (target : ℂ) (h : Smooth E cfg target) (s : CSt X)
    (hs : PSOk s) : ∃ s', cauchySamples E cfg target s = .done .success s' ∧ Frame s s' ∧ PSOk s' ∧
      CLoops cfg.n s' ∧ psDist target s' = psDist target s := by
  obtain ⟨s', e, h1, h2, h3, h4, h5⟩ := circleTrack_ok E cfg target h.n h.track _ (clearAndSeed_loops s hs cfg.n)
  refine ⟨s', ?_, (clearAndSeed_frame s).trans h2, ⟨by rw [h3, h4]; exact hs.len, by rw [h4]; exact hs.three⟩, h5,
    psDist_congr h3⟩
  unfold cauchySamples
  rw [samplesLoop, if_pos (by simpa [clearAndSeed] using h.safe), e]
  dsimp only
  rw [checkClosed_ok E cfg target h s' h5]
  rfl

theorem zoneFor_ok (E : CEnv X) (cfg : CCfg) (target : ℂ) (h : Smooth E cfg target) (fuel : ℕ) :
    ∀ rem l (s : CSt X), PSOk s → (∀ j, j ≤ rem → cfg.minTrack ≤ |1 - cfg.factor| ^ j * psDist target s) →
      ∃ s', zoneFor E cfg target rem l s (zoneWhile E cfg target (fuel + 1)) = .done .success s' ∧ Frame s s' ∧
        PSOk s' ∧ psDist target s' = |1 - cfg.factor| ^ rem * psDist target s := by
  intro rem
  induction rem with
  | zero =>
    intro l s hs _
    refine ⟨s, ?_, Frame.rfl' s, hs, by simp⟩
    rw [zoneFor, zoneWhile, if_neg]
    rintro ⟨h1, -⟩
    simp [stable, h.ratio] at h1
  | succ rem ih =>
    intro l s hs hm
    obtain ⟨s1, e1, h1, h2, h3⟩ := advanceC_ok E cfg target h.track s hs (by simpa using hm 1 (by omega))
    obtain ⟨v, hv⟩ := ckOf_some E s1 h2
    obtain ⟨s', e', g1, g2, g3⟩ := ih (l ++ [v]) { s1 with k := s1.k + 1 } ⟨h2.len, h2.three⟩ (by
      intro j hj
      rw [psDist_k, h3, ← mul_assoc, ← pow_succ]
      exact hm (j + 1) (by omega))
    refine ⟨s', ?_, h1.trans ⟨g1.1, g1.2, g1.3, g1.4, g1.5⟩, g2, by rw [g3, psDist_k, h3]; ring⟩
    rw [zoneFor, e1, andThen_ok, hv]
    exact e'

theorem runC_ok (E : CEnv X) (cfg : CCfg) (start target : ℂ) (x0 : X) (h : Smooth E cfg target) (fuel : ℕ)
    (hm : ∀ j, j ≤ cfg.needed → cfg.minTrack ≤ |1 - cfg.factor| ^ j * dist0 cfg start target) :
    ∃ s, PSOk s ∧ Frame (c0 x0) s ∧ CLoops cfg.n s ∧
      psDist target s = |1 - cfg.factor| ^ cfg.needed * dist0 cfg start target ∧
      runC E cfg start target x0 (fuel + 1) = loopC E cfg target (fuel + 1)
        (if cfg.level ≤ 0 then { s with normPrev := some (E.dehomNorm s.prev) } else s) := by
  obtain ⟨c, ts, xs, k, hr⟩ : ∃ c ts xs k,
      initialSamples E.toEgEnv cfg.toEgCfg start target x0 0 = (c, ts, xs, k) := ⟨_, _, _, _, rfl⟩
  have hn := h.n
  obtain ⟨a1, a2, a3, a4, a5, a6, a7⟩ := initialLoop_spec E.toEgEnv cfg.toEgCfg start target (fun _ _ => True)
    ⟨fun _ _ _ _ _ _ => trivial, fun _ _ _ _ => trivial⟩ (cfg.n - 1) 0 [start] [x0]
    start x0 [] [] rfl rfl (.cons trivial .nil) (by simp) rfl c ts xs k hr
  have hc : c = .success := by
    by_contra hc
    obtain ⟨k, t, t', x, h'⟩ := a7 hc
    exact hc (h'.symm.trans (h.track k t t' x))
  subst hc
  obtain ⟨b1, -⟩ := a6 rfl
  have hlast := initialLoop_last E.toEgEnv cfg.toEgCfg target (cfg.n - 1) 0 [start] [x0] start x0 (by simp) _ _ _ hr
  have hps : PSOk ({ c0 x0 with psT := ts, psX := xs, k := k } : CSt X) := by
    refine ⟨a1, ?_⟩
    rw [List.length_singleton] at b1
    show 3 ≤ xs.length
    omega
  have hd : psDist target ({ c0 x0 with psT := ts, psX := xs, k := k + 1 } : CSt X) = dist0 cfg start target := by
    simp only [psDist, hlast, dist0]
  obtain ⟨v, hv⟩ := ckOf_some E _ hps
  obtain ⟨s1, e1, g1, g2, g3⟩ := zoneFor_ok E cfg target h fuel cfg.needed [v]
    { c0 x0 with psT := ts, psX := xs, k := k + 1 } ⟨hps.len, hps.three⟩ (by rw [hd]; exact hm)
  obtain ⟨s2, e2, k1, k2, k3, k4⟩ := initialLoops_ok E cfg target h fuel s1 g2
  have g1' : Frame (c0 x0) s1 := ⟨g1.1, g1.2, g1.3, g1.4, g1.5⟩
  refine ⟨s2, k2, g1'.trans k1, k3, by rw [k4, g3, hd], ?_⟩
  have e0 : intoZone E cfg start target x0 (fuel + 1) (c0 x0) = .done .success s1 := by
    unfold intoZone
    rw [show (c0 x0).k = 0 from rfl, hr]
    dsimp only
    rw [if_neg (by simp), hv]
    exact e1
  unfold runC
  dsimp only
  unfold c0 at e0
  rw [e0, andThen_ok, e2, andThen_ok]

/-- A turn of the main loop in a smooth environment. -/
theorem loopC_ok (E : CEnv X) (cfg : CCfg) (target : ℂ) (h : Smooth E cfg target) (fuel : ℕ) (s : CSt X)
    (hs : PSOk s) (hl : CLoops cfg.n s) (hlev : cfg.level = 0)
    (hm : cfg.minTrack ≤ |1 - cfg.factor| * psDist target s)
    (hd : ∀ xs, ¬ below cfg.finalTol (E.dist (E.mean xs) s.prev)) :
    ∃ s' xs, loopC E cfg target (fuel + 1) s = loopC E cfg target fuel s' ∧ PSOk s' ∧ CLoops cfg.n s' ∧
      psDist target s' = |1 - cfg.factor| * psDist target s ∧ s'.prev = E.mean xs ∧ s'.hist = s.hist ++ [E.mean xs] := by
  obtain ⟨s1, xs, e1, f0, f1, f2, f3, f4⟩ : ∃ s1 xs, cauchyApprox E cfg s = .done .success s1 ∧
      s1.hist = s.hist ++ [E.mean xs] ∧ s1.latest = E.mean xs ∧ s1.prev = s.prev ∧ s1.psT = s.psT ∧
      s1.psX = s.psX := by
    unfold cauchyApprox
    rw [if_neg (not_not.2 hl.lenX)]
    exact ⟨_, _, rfl, rfl, rfl, rfl, rfl, rfl⟩
  have hj : judge E cfg s1 = .inr s1 := by
    unfold judge
    rw [if_neg (by rw [f1, f2]; exact hd xs), if_neg (not_not.2 hlev)]
  obtain ⟨s3, e3, g1, g2, g3⟩ := advanceC_ok E cfg target h.track { s1 with prev := s1.latest, normPrev := s1.normLatest }
    ⟨by show s1.psT.length = s1.psX.length; rw [f3, f4]; exact hs.len, by show 3 ≤ s1.psX.length; rw [f4]; exact hs.three⟩
    (by rw [show psDist target { s1 with prev := s1.latest, normPrev := s1.normLatest } = psDist target s from
          psDist_congr f3]; exact hm)
  obtain ⟨s4, e4, k1, k2, k3, k4⟩ := cauchySamples_ok E cfg target h s3 g2
  refine ⟨s4, xs, ?_, k2, k3, ?_, ?_, ?_⟩
  · rw [loopC, e1, andThen_ok, hj]
    dsimp only
    rw [e3, andThen_ok, e4, andThen_ok]
  · rw [k4, g3]
    congr 1
    exact psDist_congr f3
  · rw [k1.prev, g1.prev]; exact f1
  · rw [k1.hist, g1.hist]; exact f0

/-- The samples of `idEnv` are flat. -/
theorem flat_of_zero (E : CEnv X) (cfg : CCfg) (target : ℂ) (h : ∀ x, E.sampNorm x = 0) (ht : 0 ≤ cfg.finalTol)
    (s : CSt X) : zoneTest E cfg target s := by
  refine .inr ?_
  dsimp only
  rintro ⟨-, h1, -⟩
  have : ∀ l : List X, (l.map E.sampNorm).foldl max 0 = 0 := by
    intro l
    induction l with
    | nil => rfl
    | cons a l ih => simp [h, ih]
  rw [this] at h1
  linarith

theorem smooth_idEnv : Smooth idEnv ccfgD 0 where
  n := by simp [ccfgD]
  track := fun _ _ _ _ => rfl
  closed := fun a b => ⟨0, rfl, by norm_num [ccfgD]⟩
  safe := by simp [ccfgD]
  flat := flat_of_zero _ _ _ (fun _ => rfl) (by norm_num [ccfgD])
  ratio := fun _ _ => rfl

theorem ccfgD_dist0 : dist0 ccfgD 1 0 = 1 / 4 := by
  show ‖nextTimePS (1 / 2) 0 (nextTimePS (1 / 2) 0 1) - 0‖ = 1 / 4
  unfold nextTimePS
  norm_num

/-- **C47 fails for the Cauchy endgame**: with the default settings success can be reported after a single
approximation, because the first one is compared with the start point of the endgame. -/
theorem C47_cauchy_refuted : ¬ C47_cauchy_full ∧
    ∃ s, runC idEnv ccfgD 1 0 () 1 = .done .success s ∧ s.hist = [()] := by
  have key : ∃ s, runC idEnv ccfgD 1 0 () 1 = .done .success s ∧ s.hist = [()] := by
    obtain ⟨s, h1, h2, h3, -, e⟩ := runC_ok idEnv ccfgD 1 0 () smooth_idEnv 0 (by
      rw [ccfgD_dist0]
      intro j hj
      have : j ≤ 3 := hj
      interval_cases j <;> norm_num [ccfgD, abs_of_pos])
    rw [show (0 : ℕ) + 1 = 1 from rfl] at e
    rw [e, loopC]
    unfold cauchyApprox
    rw [if_neg]
    swap
    · split_ifs
      · exact not_not.2 h3.lenX
      · exact not_not.2 h3.lenX
    rw [andThen_ok]
    unfold judge
    rw [if_pos ⟨0, rfl, by norm_num [ccfgD]⟩]
    refine ⟨_, rfl, ?_⟩
    have : s.hist = [] := h2.hist
    rw [if_pos (by simp [ccfgD])]
    simp [this]
  refine ⟨fun hf => ?_, key⟩
  obtain ⟨s, e, hs⟩ := key
  obtain ⟨h, a, b, r, h1, -⟩ := hf Unit idEnv ccfgD 1 0 () 1 s (by simp [ccfgD]) (by simp [ccfgD]) e
  rw [hs] at h1
  have := congrArg List.length h1
  simp at this

/-! ### C49 -/

/-- The Cauchy rule for the next time moves to the target by `1 - factor`; that is the factor only if the factor is one
half (or the time is the target already). -/
theorem C49_cauchy (f : ℝ) (target t : ℂ) :
    ‖nextTimeC f target t - target‖ = |1 - f| * ‖t - target‖ ∧
    (nextTimeC f target t - target = f * (t - target) ↔ (f = 1 / 2 ∨ t = target)) := by
  refine ⟨by rw [nextTimeC_sub, norm_mul, Complex.norm_real, Real.norm_eq_abs], ?_⟩
  rw [nextTimeC_sub]
  constructor
  · intro h
    have h2 : (1 - 2 * (f : ℂ)) * (t - target) = 0 := by push_cast at h; linear_combination h
    rcases mul_eq_zero.1 h2 with h3 | h3
    · left
      have h4 : ((1 - 2 * f : ℝ) : ℂ) = 0 := by push_cast; exact h3
      have h5 : 1 - 2 * f = 0 := by exact_mod_cast h4
      linarith
    · exact .inr (sub_eq_zero.1 h3)
  · rintro (h | h)
    · subst h; push_cast; ring
    · subst h; simp

/-- **C49 fails for the Cauchy endgame**: with factor 1/4, target 0, an advance from time 1 goes to 3/4. -/
theorem C49_cauchy_refuted : nextTimeC (1 / 4) 0 1 = 3 / 4 ∧
    ¬ ∀ (f : ℝ) (target t : ℂ), 0 < f → f < 1 → ‖nextTimeC f target t - target‖ = f * ‖t - target‖ := by
  refine ⟨by unfold nextTimeC; push_cast; norm_num, fun h => ?_⟩
  have := h (1 / 4) 0 1 (by norm_num) (by norm_num)
  rw [(C49_cauchy _ _ _).1] at this
  norm_num [abs_of_pos] at this

/-! ### C53 -/

/-- **C53, partial (Cauchy)**: for a negative level the test works as in the power-series endgame (the start point counts
as the first approximation); for level zero the run never stops for that reason.  Missing: level zero should test,
positive levels should run without the test; see `C53_cauchy_refuted`. -/
theorem C53_cauchy_partial (E : CEnv X) (cfg : CCfg) (start target : ℂ) (x0 : X) (fuel : ℕ) (hn : 3 ≤ cfg.n)
    (ht : ∀ k t t' x, (E.track k t t' x).1 ≠ .securityMaxNormReached) :
    (cfg.level < 0 → ∀ s, runC E cfg start target x0 fuel = .done .securityMaxNormReached s →
      ∃ h a b, x0 :: s.hist = h ++ [a, b] ∧ cfg.maxNorm < E.dehomNorm a ∧ cfg.maxNorm < E.dehomNorm b ∧
        ∀ h1 a' b' h2, h ++ [a] = h1 ++ [a', b'] ++ h2 →
          E.dehomNorm a' ≤ cfg.maxNorm ∨ E.dehomNorm b' ≤ cfg.maxNorm) ∧
    (cfg.level < 0 → ∀ s, runC E cfg start target x0 fuel = .done .success s →
      ∀ h a b h' c, x0 :: s.hist = h ++ [a, b] ++ h' ++ [c] →
          E.dehomNorm a ≤ cfg.maxNorm ∨ E.dehomNorm b ≤ cfg.maxNorm) ∧
    (cfg.level = 0 → ∀ s, runC E cfg start target x0 fuel ≠ .done .securityMaxNormReached s) := by
  have hchain : ∀ l : List X, l.IsChain (NotBothLarge E.toEgEnv cfg.toEgCfg) → ∀ h a b h', l = h ++ [a, b] ++ h' →
      E.dehomNorm a ≤ cfg.maxNorm ∨ E.dehomNorm b ≤ cfg.maxNorm := by
    intro l hl h a b h' e
    rw [e, List.append_assoc, List.isChain_append] at hl
    have := hl.2.1
    simp only [List.cons_append, List.nil_append, List.isChain_cons_cons] at this
    by_contra hcon
    push Not at hcon
    exact this.1 hcon
  have hfc : ¬ FailCode E .securityMaxNormReached := by
    rintro ⟨-, h | h | ⟨k, t, t', x, h⟩⟩
    · cases h
    · cases h
    · exact ht k t t' x h
  refine ⟨fun hl s e => ?_, fun hl s e => ?_, fun hl s e => ?_⟩
  · rcases runC_spec E cfg start target x0 hn (by omega) fuel with ⟨s', j, e', -⟩ | ⟨c, s', e', hf⟩ | he
    · rw [e] at e'; cases e'
    · rw [e] at e'; cases e'; exact absurd hf hfc
    · rw [e] at he
      cases he with
      | security _ h a _ h1 h2 h3 h4 h5 =>
        have h6 := List.dropLast_append_getLast? a h2
        refine ⟨(x0 :: h).dropLast, a, s.latest, ?_, h3, h4, ?_⟩
        · rw [h1, ← List.cons_append]
          conv_lhs => rw [← h6]
          simp
        · rw [h6]; exact hchain _ h5
      | failed _ _ hf => exact absurd hf hfc
  · rcases runC_spec E cfg start target x0 hn (by omega) fuel with ⟨s', j, e', -⟩ | ⟨c, s', e', hf⟩ | he
    · rw [e] at e'; cases e'
    · rw [e] at e'; cases e'; exact absurd rfl hf.1
    · rw [e] at he
      cases he with
      | converged _ h a r h1 h2 h3 h4 h5 =>
        intro h' a' b' h'' c e2
        rw [h1, ← List.cons_append] at e2
        exact hchain _ (h5 hl) h' a' b' h'' (List.append_inj_left' e2 rfl)
      | failed _ _ hf => exact absurd rfl hf.1
  · rcases runC_spec E cfg start target x0 hn (by omega) fuel with ⟨s', j, e', -⟩ | ⟨c, s', e', hf⟩ | he
    · rw [e] at e'; cases e'
    · rw [e] at e'; cases e'; exact absurd hf hfc
    · rw [e] at he
      cases he with
      | security _ h a h1 => omega
      | failed _ _ hf => exact absurd hf hfc

/-- **C53, full statement for the Cauchy endgame**, read as in the power-series endgame (enabled when the level is at most
zero): enabled, a run that is still going never had two consecutive approximations beyond the security norm; disabled, no
run misbehaves. -/
def C53_cauchy_full : Prop :=
  ∀ (X : Type) (E : CEnv X) (cfg : CCfg) (start target : ℂ) (x0 : X) (fuel : ℕ), 3 ≤ cfg.n →
    (cfg.level ≤ 0 → ∀ s, runC E cfg start target x0 fuel = .more s →
      ∀ (h : List X) (a b : X) (h' : List X), s.hist = h ++ [a, b] ++ h' →
        E.dehomNorm a ≤ cfg.maxNorm ∨ E.dehomNorm b ≤ cfg.maxNorm) ∧
    (0 < cfg.level → runC E cfg start target x0 fuel ≠ .bad)

/-- Smooth, but the approximations never agree and are large. -/
noncomputable def farEnv : CEnv Unit where
  track := fun _ _ _ x => (.success, x)
  refine := fun _ x _ => (.success, x)
  approx := fun _ _ _ => ()
  dist := fun _ _ => some 1
  dehomNorm := fun _ => 10 ^ 5
  polish := fun _ x _ => x
  mean := fun _ => ()
  cOverK := fun _ _ _ _ => 1
  lowRatio := fun _ _ => false
  sampNorm := fun _ => 0

/-- The default settings with another security level and a tracking tolerance of 2. -/
noncomputable def ccfgF (lev : ℤ) : CCfg :=
  { n := 3, factor := 1 / 2, minTrack := 1 / 10 ^ 100, finalTol := 1 / 10 ^ 11, level := lev, maxNorm := 10 ^ 4,
    failsafe := 250, needed := 3, cycleCutoff := 1 / 10 ^ 8, ratioCutoff := 1 / 10 ^ 14, maxRatio := 1 / 2,
    trackTol := 2 }

theorem smooth_farEnv (lev : ℤ) : Smooth farEnv (ccfgF lev) 0 where
  n := by simp [ccfgF]
  track := fun _ _ _ _ => rfl
  closed := fun a b => ⟨1, rfl, by norm_num [ccfgF]⟩
  safe := by simp [ccfgF]
  flat := flat_of_zero _ _ _ (fun _ => rfl) (by norm_num [ccfgF])
  ratio := fun _ _ => rfl

/-- **C53 fails for the Cauchy endgame**, both ways: at level zero (the default) a run continues after two
consecutive approximations of norm `10^5`, ten times the security norm; at level one the run reads a variable that was
never set. -/
theorem C53_cauchy_refuted : ¬ C53_cauchy_full ∧
    (∃ s, runC farEnv (ccfgF 0) 1 0 () 2 = .more s ∧ s.hist = [(), ()]) ∧
    runC farEnv (ccfgF 1) 1 0 () 2 = .bad := by
  have hd0 : ∀ lev : ℤ, dist0 (ccfgF lev) 1 0 = 1 / 4 := fun _ => ccfgD_dist0
  have hmin : ∀ lev : ℤ, ∀ j, j ≤ 3 → (ccfgF lev).minTrack ≤
      |1 - (ccfgF lev).factor| ^ j *
        dist0 (ccfgF lev) 1 0 := by
    intro lev j hj
    rw [hd0]
    interval_cases j <;> norm_num [ccfgF, abs_of_pos]
  have k1 : ∃ s, runC farEnv (ccfgF 0) 1 0 () 2 = .more s ∧ s.hist = [(), ()] := by
    obtain ⟨s, h1, h2, h3, h4, e⟩ := runC_ok farEnv (ccfgF 0) 1 0 () (smooth_farEnv 0) 1
      (hmin 0)
    rw [show (1 : ℕ) + 1 = 2 from rfl, if_pos (show (ccfgF 0).level ≤ 0 from le_refl _)] at e
    have hnb : ∀ p xs, ¬ below (ccfgF 0).finalTol
        (farEnv.dist (farEnv.mean xs) p) := by
      rintro p xs ⟨r, h5, h6⟩
      simp only [farEnv, Option.some.injEq] at h5
      rw [← h5] at h6
      norm_num [ccfgF] at h6
    have hh : s.hist = [] := h2.hist
    rw [hd0] at h4
    obtain ⟨s1, xs1, e1, a1, a2, a3, -, a4⟩ := loopC_ok farEnv _ 0 (smooth_farEnv 0) 1
      { s with normPrev := some (farEnv.dehomNorm s.prev) } ⟨h1.len, h1.three⟩ ⟨h3.lenT, h3.lenX⟩ rfl
      (by
        rw [show psDist 0 { s with normPrev := some (farEnv.dehomNorm s.prev) } = psDist 0 s from rfl, h4]
        norm_num [ccfgF, abs_of_pos])
      (hnb _)
    obtain ⟨s2, xs2, e2, b1, b2, b3, -, b4⟩ := loopC_ok farEnv _ 0 (smooth_farEnv 0) 0 s1 a1 a2 rfl
      (by
        rw [a3, show psDist 0 { s with normPrev := some (farEnv.dehomNorm s.prev) } = psDist 0 s from rfl, h4]
        norm_num [ccfgF, abs_of_pos])
      (hnb _)
    refine ⟨s2, ?_, ?_⟩
    · rw [e]
      exact (e1.trans e2).trans rfl
    · rw [b4, a4]
      show s.hist ++ _ ++ _ = _
      rw [hh]
      rfl
  have k2 : runC farEnv (ccfgF 1) 1 0 () 2 = .bad := by
    obtain ⟨s, h1, h2, h3, h4, e⟩ := runC_ok farEnv (ccfgF 1) 1 0 () (smooth_farEnv 1) 1
      (hmin 1)
    rw [show (1 : ℕ) + 1 = 2 from rfl, if_neg (by norm_num [ccfgF])] at e
    rw [e, loopC]
    unfold cauchyApprox
    rw [if_neg (not_not.2 h3.lenX), andThen_ok]
    unfold judge
    rw [if_neg, if_pos (by simp [ccfgF])]
    · dsimp only
      rw [show s.normPrev = none from h2.normPrev]
    · rintro ⟨r, h5, h6⟩
      simp only [farEnv, Option.some.injEq] at h5
      rw [← h5] at h6
      norm_num [ccfgF] at h6
  refine ⟨fun hf => ?_, k1, k2⟩
  exact (hf Unit farEnv (ccfgF 1) 1 0 () 2 (by simp [ccfgF])).2 (by norm_num [ccfgF]) k2

/-- **C53, the two endgames disagree**: the power-series endgame started in the same situation at level zero stops for
security, the Cauchy endgame does not. -/
theorem C53_disagree :
    (∃ s, runPS farEnv.toEgEnv ⟨2, 1 / 2, 1 / 10 ^ 100, 1 / 10 ^ 11, 0, 10 ^ 4⟩ 1 0 () 1 =
      .done .securityMaxNormReached s) ∧
    ∀ fuel s, runC farEnv (ccfgF 0) 1 0 () fuel ≠ .done .securityMaxNormReached s := by
  constructor
  · have h1 : above (1 / 10 ^ 11) (some (1 : ℝ)) := ⟨1, rfl, by norm_num⟩
    have h2 : ¬ ‖nextTimePS (1 / 2) 0 (nextTimePS (1 / 2) 0 1) - 0‖ < 1 / 10 ^ 100 := by
      unfold nextTimePS; norm_num
    have h3 : (10 ^ 4 : ℝ) < 10 ^ 5 := by norm_num
    simp only [runPS, initPS, initialSamples, initialLoop, farEnv, loopPS, stepPS, advancePS, refineAll,
      extrapolatePS, ne_eq, not_true_eq_false, if_false, if_true, List.getLast?_cons_cons, List.getLast?_singleton,
      List.nil_append, List.cons_append, h1, h2, h3, Nat.reduceSub, le_refl, List.length_cons, List.length_nil,
      Nat.reduceAdd, Nat.lt_irrefl]
    exact ⟨_, rfl⟩
  · intro fuel
    exact (C53_cauchy_partial farEnv (ccfgF 0) 1 0 () fuel (by simp [ccfgF])
      (fun _ _ _ _ => by simp [farEnv])).2.2 rfl

/-- Concrete cases of the hypotheses of `C75` and `C47_cauchy_partial`. -/
example : 3 ≤ ccfgD.n ∧ ccfgD.level ≤ 0 ∧ 0 < ccfgD.factor ∧ ccfgD.factor < 2 ∧ 0 < ccfgD.minTrack := by
  norm_num [ccfgD]

end B2.Endgame
