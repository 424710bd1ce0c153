/-
Power-series endgame: C47 (convergence test), C48 (termination), C49 (sample times), C50 (sample window),
C53 (security truncation).
-/
import Verif.Endgame.PSProof
import Mathlib.Analysis.SpecificLimits.Basic
import Mathlib.Analysis.Complex.Basic
import Mathlib.Tactic.Linarith
import Mathlib.Tactic.NormNum.Pow
import Mathlib.Tactic.LinearCombination

set_option linter.unusedSimpArgs false

namespace B2.Endgame
open B2.Track (Code)

variable {X : Type}

/-! ### The whole run -/

/-- How a run can end. -/
inductive Ended (E : EgEnv X) (cfg : EgCfg) (start target : ℂ) (P : ℂ → X → Prop) : Code → PSt X → Prop
  | converged (s) (h : PInv E cfg start target P s) (he : ¬ above cfg.finalTol s.err) :
      Ended E cfg start target P .success s
  | minTime (s) (h : PInv E cfg start target P s) : Ended E cfg start target P .minTrackTimeReached s
  | trackFailed (c s) (hc : c ≠ .success) (h : ∃ k t t' x, (E.track k t t' x).1 = c)
      (hl : s.times.length = s.samples.length) (hb : s.times.length ≤ cfg.n + 1) :
      Ended E cfg start target P c s
  | refineFailed (c s) (hc : c ≠ .success) (h : ∃ k x t, (E.refine k x t).1 = c)
      (hl : s.times.length = s.samples.length) (hb : s.times.length ≤ cfg.n + 2) :
      Ended E cfg start target P c s
  | security (s h a b) (hl : cfg.level ≤ 0) (hh : s.hist = h ++ [a, b]) (hb : s.latest = b)
      (h1 : cfg.maxNorm < E.dehomNorm a) (h2 : cfg.maxNorm < E.dehomNorm b)
      (h3 : (h ++ [a]).IsChain (NotBothLarge E cfg))
      (hl' : s.times.length = s.samples.length) (hb' : s.times.length ≤ cfg.n + 1) :
      Ended E cfg start target P .securityMaxNormReached s

theorem loopPS_ended (E : EgEnv X) (cfg : EgCfg) (start target : ℂ) (P : ℂ → X → Prop) (hP : Sound E P) :
    ∀ fuel s, PInv E cfg start target P s →
      (∃ s', loopPS E cfg target fuel s = .more s' ∧ PInv E cfg start target P s') ∨
      (∃ c s', loopPS E cfg target fuel s = .done c s' ∧ Ended E cfg start target P c s') := by
  intro fuel
  induction fuel with
  | zero => intro s h; exact .inl ⟨s, rfl, h⟩
  | succ fuel ih =>
    intro s h
    have hb : s.times.length ≤ cfg.n + 1 := by have := h.full; omega
    rw [loopPS]
    rcases stepPS_spec E cfg start target P hP s h with ⟨s', e, h', -⟩ | ⟨e, h1⟩ | ⟨s', e, rfl⟩ |
      ⟨c, s', e, h1, h2, h3, h4⟩ | ⟨c, s', e, h1, h2, h3, h4⟩ | ⟨s', hh, a, b, e, h1, h2, h3, h4, h5, h6, h7, h8⟩
    · rw [e]; exact ih s' h'
    · rw [e]; exact .inr ⟨_, _, rfl, .converged s h h1⟩
    · rw [e]; exact .inr ⟨_, _, rfl, .minTime _ h⟩
    · rw [e]
      exact .inr ⟨_, _, rfl, .trackFailed c s' h1 h2 (by rw [h3, h4]; exact h.len) (by rw [h3]; exact hb)⟩
    · rw [e]; exact .inr ⟨_, _, rfl, .refineFailed c s' h1 h2 h4 (by omega)⟩
    · rw [e]; exact .inr ⟨_, _, rfl, .security s' hh a b h1 h2 h8 h3 h4 h5 h6 h7⟩

theorem runPS_ended (E : EgEnv X) (cfg : EgCfg) (start target : ℂ) (P : ℂ → X → Prop) (hP : Sound E P)
    (x0 : X) (h0 : P start x0) (hn : 0 < cfg.n) (fuel : ℕ) :
    (∃ s', runPS E cfg start target x0 fuel = .more s' ∧ PInv E cfg start target P s') ∨
    (∃ c s', runPS E cfg start target x0 fuel = .done c s' ∧ Ended E cfg start target P c s') := by
  unfold runPS
  rcases initPS_spec E cfg start target P hP x0 h0 hn with ⟨s, e, h, -⟩ | ⟨c, s, e, h1, -, h3, h4, h5⟩
  · rw [e]; exact loopPS_ended E cfg start target P hP fuel s h
  · rw [e]; exact .inr ⟨_, _, rfl, .trackFailed c s h1 h5 h3 (by omega)⟩

theorem sound_true (E : EgEnv X) : Sound E fun _ _ => True := ⟨fun _ _ _ _ _ _ => trivial, fun _ _ _ _ => trivial⟩

/-! ### C47 -/

/-- **C47, full statement for the power-series endgame**: if a run reports success, the last two
approximations of the limit differ by at most the final tolerance and the last is the one returned. -/
def C47_ps_full : Prop :=
  ∀ (X : Type) (E : EgEnv X) (cfg : EgCfg) (start target : ℂ) (x0 : X) (fuel : ℕ) (s : PSt X), 0 < cfg.n →
    runPS E cfg start target x0 fuel = .done .success s →
    ∃ (h : List X) (a b : X) (r : ℝ), s.hist = h ++ [a, b] ∧ s.latest = b ∧ E.dist b a = some r ∧
      r ≤ cfg.finalTol

/-- **C47, partial (power series)**: with a final tolerance below one, success means that at least two
approximations were computed, the returned one is the latest, and its distance from the one before is at
most the tolerance or is not a number.  Missing: tolerances `≥ 1` and differences that are not numbers, where
the claim is false. -/
theorem C47_ps_partial (E : EgEnv X) (cfg : EgCfg) (start target : ℂ) (x0 : X) (fuel : ℕ) (s : PSt X)
    (hn : 0 < cfg.n) (htol : cfg.finalTol < 1)
    (h : runPS E cfg start target x0 fuel = .done .success s) :
    ∃ hh a b, s.hist = hh ++ [a, b] ∧ s.latest = b ∧
      (E.dist b a = none ∨ ∃ r, E.dist b a = some r ∧ r ≤ cfg.finalTol) := by
  rcases runPS_ended E cfg start target _ (sound_true E) x0 trivial hn fuel with ⟨s', e, -⟩ | ⟨c, s', e, he⟩
  · rw [e] at h; cases h
  rw [e] at h
  cases h
  cases he with
  | converged _ hI hab =>
    rcases hI.errEq with ⟨-, h2⟩ | ⟨hh, a, h1, h2⟩
    · exact absurd ⟨1, h2, htol⟩ hab
    · refine ⟨hh, a, s.prev, h1, hI.latestEq, ?_⟩
      cases hd : E.dist s.prev a with
      | none => exact .inl rfl
      | some r =>
        refine .inr ⟨r, rfl, ?_⟩
        by_contra hlt
        exact hab ⟨r, by rw [h2, hd], not_le.1 hlt⟩
  | trackFailed _ _ hc => exact absurd rfl hc
  | refineFailed _ _ hc => exact absurd rfl hc

/-- Every call of the tracker and of the refiner succeeds. -/
def AllOk (E : EgEnv X) : Prop :=
  (∀ k t t' x, (E.track k t t' x).1 = .success) ∧ ∀ k x t, (E.refine k x t).1 = .success

theorem refineAll_count (E : EgEnv X) : ∀ (ts : List ℂ) (xs : List X) k, k ≤ (refineAll E k ts xs).1 := by
  intro ts
  induction ts with
  | nil => intro xs k; cases xs <;> simp [refineAll]
  | cons t ts ih =>
    intro xs k
    cases xs with
    | nil => simp [refineAll]
    | cons x xs =>
      rw [refineAll]
      split_ifs
      · exact le_trans (by omega) (ih xs (k + 1))
      · simp

theorem initPS_ok (E : EgEnv X) (hE : ∀ k t t' x, (E.track k t t' x).1 = .success) (cfg : EgCfg) (hn : cfg.n = 3) (start target : ℂ) (x0 : X) :
    ∃ s, initPS E cfg start target x0 = .more s ∧ s.err = some 1 ∧ s.samples ≠ [] ∧
      s.times.getLast? = some (nextTimePS cfg.factor target (nextTimePS cfg.factor target start)) ∧
      s.times.length = 3 ∧ s.samples.length = 3 ∧ (∃ a, s.hist = [a]) ∧
      (∃ k ts xs, s.prev = E.approx k ts xs ∧ s.k = k + 1) ∧
      s.normPrev = (if cfg.level ≤ 0 then some (E.dehomNorm s.prev) else none) := by
  have h1 : initialSamples E cfg start target x0 0 = (.success,
      [start, nextTimePS cfg.factor target start, nextTimePS cfg.factor target (nextTimePS cfg.factor target start)],
      [x0, (E.track 0 start (nextTimePS cfg.factor target start) x0).2,
        (E.track 1 (nextTimePS cfg.factor target start)
          (nextTimePS cfg.factor target (nextTimePS cfg.factor target start))
          (E.track 0 start (nextTimePS cfg.factor target start) x0).2).2], 2) := by
    simp [initialSamples, hn, initialLoop, hE]
  unfold initPS
  rw [h1]
  refine ⟨_, if_neg (by simp), rfl, ?_, rfl, rfl, refineAll_length E _ _ _, ⟨_, rfl⟩, ⟨_, _, _, rfl, rfl⟩, rfl⟩
  intro h
  have := congrArg List.length h
  rw [refineAll_length] at this
  simp at this

theorem stepPS_ok (E : EgEnv X) (cfg : EgCfg) (target : ℂ) (s : PSt X) (t : ℂ)
    (hE : ∀ k x, (E.track k t (nextTimePS cfg.factor target t) x).1 = .success)
    (hE' : ∀ k x, (E.refine k x (nextTimePS cfg.factor target t)).1 = .success)
    (ht : s.times.getLast? = some t) (hx : s.samples ≠ []) (hab : above cfg.finalTol s.err)
    (hmt : ¬ ‖nextTimePS cfg.factor target t - target‖ < cfg.minTrack)
    (hnorm : ∀ k ts xs, E.dehomNorm (E.approx k ts xs) ≤ cfg.maxNorm) :
    ∃ s', stepPS E cfg target s = .more s' ∧
      s'.times.getLast? = some (nextTimePS cfg.factor target t) ∧ s'.samples ≠ [] ∧
      (∃ k ts xs, s.k ≤ k ∧ s'.prev = E.approx k ts xs ∧ s'.err = E.dist s'.prev s.prev ∧ s'.k = k + 1) ∧
      s'.latest = s'.prev ∧ s'.times.length = min (s.times.length + 1) (max (cfg.n + 1) s.times.length) := by
  obtain ⟨x, hx'⟩ : ∃ x, s.samples.getLast? = some x := ⟨_, List.getLast?_eq_some_getLast hx⟩
  have hadv : ∃ s1, advancePS E cfg target s = some (.success, s1) ∧
      s1.times.getLast? = some (nextTimePS cfg.factor target t) ∧ s1.samples ≠ [] ∧ s1.k = s.k + 2 ∧
      s1.prev = s.prev ∧ s1.times.length = min (s.times.length + 1) (max (cfg.n + 1) s.times.length) := by
    unfold advancePS
    rw [ht, hx']
    dsimp only
    rw [if_neg hmt, if_neg (by simpa using hE _ _), if_neg (by simpa using hE' _ _)]
    have hlast : ∀ (α : Type) (l : List α) (a : α), l ≠ [] → (l ++ [a]).tail.getLast? = some a := by
      intro α l a hl
      cases l with
      | nil => exact absurd rfl hl
      | cons b l => simp
    have htne : s.times ≠ [] := by intro h0; rw [h0] at ht; cases ht
    split_ifs with hlen <;> rw [List.length_append, List.length_singleton] at hlen
    · refine ⟨_, rfl, hlast _ _ _ htne, ?_, rfl, rfl, by simp; omega⟩
      intro h0
      have h3 := hlast _ s.samples (E.refine (s.k + 1) (E.track s.k t (nextTimePS cfg.factor target t) x).2
        (nextTimePS cfg.factor target t)).2 hx
      dsimp only at h0
      rw [h0] at h3; cases h3
    · exact ⟨_, rfl, by simp, by simp, rfl, rfl, by simp; omega⟩
  obtain ⟨s1, e, g1, g2, g3, g4, g5⟩ := hadv
  unfold stepPS
  rw [if_pos hab, e]
  dsimp only
  rw [if_neg (by simp)]
  have hr : (refineAll E s1.k s1.times s1.samples).2 ≠ [] := by
    intro h0
    have := refineAll_length E s1.times s1.samples s1.k
    rw [h0] at this
    exact g2 (List.length_eq_zero_iff.1 this.symm)
  have hk := refineAll_count E s1.times s1.samples s1.k
  have hnn : ¬ cfg.maxNorm < E.dehomNorm (extrapolatePS E s1).latest := not_lt.2 (hnorm _ _ _)
  rw [if_neg hnn]
  split_ifs
  · exact ⟨_, rfl, g1, hr, ⟨_, _, _, by omega, rfl, by rw [← g4]; rfl, rfl⟩, rfl, g5⟩
  · exact ⟨_, rfl, g1, hr, ⟨_, _, _, by omega, rfl, by rw [← g4]; rfl, rfl⟩, rfl, g5⟩

/-- An environment in which every call succeeds and every difference is not a number. -/
def nanEnv : EgEnv Unit :=
  ⟨fun _ _ _ x => (.success, x), fun _ x _ => (.success, x), fun _ _ _ => (), fun _ _ => none, fun _ => 0⟩

/-- Default settings (config.hpp lines 96-115). -/
noncomputable def cfgD : EgCfg := ⟨3, 1 / 2, 1 / 10 ^ 100, 1 / 10 ^ 11, 0, 10 ^ 4⟩

/-- **C47 fails for the power-series endgame**, in two ways: with the default settings, approximations whose
difference is not a number are reported as a success; with a final tolerance of one, success is reported after
a single approximation. -/
theorem C47_ps_refuted : ¬ C47_ps_full ∧
    (∃ s, runPS nanEnv cfgD 1 0 () 2 = .done .success s) ∧
    (∀ (E : EgEnv X) (x0 : X), AllOk E →
      ∃ s a, runPS E ⟨3, 1 / 2, 1 / 10 ^ 100, 1, 0, 10 ^ 4⟩ 1 0 x0 1 = .done .success s ∧ s.hist = [a]) := by
  have h1 : ∃ s, runPS nanEnv cfgD 1 0 () 2 = .done .success s := by
    have hE : AllOk nanEnv := ⟨fun _ _ _ _ => rfl, fun _ _ _ => rfl⟩
    obtain ⟨s, e, h1, h2, h3, -⟩ := initPS_ok nanEnv hE.1 cfgD rfl 1 0 ()
    obtain ⟨s', e', -, -, ⟨k, ts, xs, -, -, h5, -⟩, -⟩ := stepPS_ok nanEnv cfgD 0 s _ (fun _ _ => rfl) (fun _ _ => rfl) h3 h2
      (by rw [h1]; exact ⟨1, rfl, by norm_num [cfgD]⟩)
      (by simp only [nextTimePS, cfgD]; norm_num; try norm_num)
      (fun _ _ _ => by simp [nanEnv, cfgD])
    refine ⟨s', ?_⟩
    unfold runPS
    rw [e]
    dsimp only
    rw [loopPS, e']
    dsimp only
    rw [loopPS]
    unfold stepPS
    rw [if_neg]
    rw [h5]
    rintro ⟨r, h6, -⟩
    cases h6
  refine ⟨fun hf => ?_, h1, ?_⟩
  · obtain ⟨s, hs⟩ := h1
    obtain ⟨h, a, b, r, -, -, h3, -⟩ := hf Unit nanEnv cfgD 1 0 () 2 s (by norm_num [cfgD]) hs
    cases h3
  · intro E x0 hE
    obtain ⟨s, e, h1, -, -, -, -, ⟨a, ha⟩, -⟩ := initPS_ok E hE.1 ⟨3, 1 / 2, 1 / 10 ^ 100, 1, 0, 10 ^ 4⟩ rfl 1 0 x0
    refine ⟨s, a, ?_, ha⟩
    unfold runPS
    rw [e]
    dsimp only
    rw [loopPS]
    unfold stepPS
    rw [if_neg]
    rw [h1]
    rintro ⟨r, h6, h7⟩
    cases h6
    exact absurd h7 (lt_irrefl _)

/-- A concrete case of `C47_ps_partial`: approximations that are constant converge. -/
def constEnv : EgEnv ℝ :=
  ⟨fun _ _ _ x => (.success, x), fun _ x _ => (.success, x), fun _ _ _ => 5, fun a b => some |a - b|,
    fun x => |x|⟩

example : cfgD.finalTol < 1 ∧ ∃ s, runPS constEnv cfgD 1 0 7 2 = .done .success s ∧ s.latest = 5 := by
  refine ⟨by norm_num [cfgD], ?_⟩
  obtain ⟨s, e, h1, h2, h3, -, -, -, ⟨k0, ts0, xs0, h4, -⟩, -⟩ :=
    initPS_ok constEnv (fun _ _ _ _ => rfl) cfgD rfl 1 0 7
  obtain ⟨s', e', -, -, ⟨k, ts, xs, -, h5, h6, -⟩, h7, -⟩ :=
    stepPS_ok constEnv cfgD 0 s _ (fun _ _ => rfl) (fun _ _ => rfl) h3 h2
      (by rw [h1]; exact ⟨1, rfl, by norm_num [cfgD]⟩)
      (by simp only [nextTimePS, cfgD]; norm_num; try norm_num)
      (fun _ _ _ => by simp [constEnv, cfgD]; norm_num [abs_of_pos])
  refine ⟨s', ?_, by rw [h7, h5]; rfl⟩
  unfold runPS
  rw [e]
  dsimp only
  rw [loopPS, e']
  dsimp only
  rw [loopPS]
  unfold stepPS
  rw [if_neg]
  rw [h6, h5, h4]
  rintro ⟨r, h8, h9⟩
  simp [constEnv] at h8
  rw [← h8] at h9
  norm_num [cfgD] at h9

end B2.Endgame
