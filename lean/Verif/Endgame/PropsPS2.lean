/-
Power-series endgame: C48 (termination), C49 (sample times), C50 (sample window), C53 (security truncation).
-/
import Verif.Endgame.PropsPS

set_option linter.unusedSimpArgs false

namespace B2.Endgame
open B2.Track (Code)

variable {X : Type}

/-! ### C49: sample times -/

/-- The rule for the next sample time contracts towards the target exactly when the factor is one half or the
target is zero. -/
theorem C49_rule (f : ℝ) (target t : ℂ) :
    nextTimePS f target t - target = f * (t - target) ↔ (f = 1 / 2 ∨ target = 0) := by
  unfold nextTimePS
  constructor
  · intro h
    have h2 : (2 * (f : ℂ) - 1) * target = 0 := by linear_combination h
    rcases mul_eq_zero.1 h2 with h3 | h3
    · left
      have h4 : ((2 * f - 1 : ℝ) : ℂ) = 0 := by push_cast; exact h3
      have h5 : 2 * f - 1 = 0 := by exact_mod_cast h4
      linarith
    · exact .inr h3
  · rintro (h | h)
    · subst h; push_cast; ring
    · subst h; ring

/-- Two successive sample times: the distance to the target is multiplied by the factor. -/
def Contracts (f : ℝ) (target t t' : ℂ) : Prop := ‖t' - target‖ = f * ‖t - target‖

/-- **C49, full statement for the power-series endgame**: along every run, each new sample time is closer to the
target by exactly the sample factor. -/
def C49_ps_full : Prop :=
  ∀ (X : Type) (E : EgEnv X) (cfg : EgCfg) (start target : ℂ) (x0 : X) (fuel : ℕ) (s : PSt X), 0 < cfg.n →
    0 < cfg.factor → cfg.factor < 1 →
    runPS E cfg start target x0 fuel = .more s → s.acc.IsChain (Contracts cfg.factor target)

/-- **C49, partial (power series)**: with target zero or factor one half, all sample times ever accepted (in
order, starting from the start time) contract towards the target by the factor.  Missing: all other targets and
factors, where `C49_rule` shows that the step never contracts by the factor. -/
theorem C49_ps_partial (E : EgEnv X) (cfg : EgCfg) (start target : ℂ) (x0 : X) (fuel : ℕ) (s : PSt X)
    (hn : 0 < cfg.n) (hf : 0 ≤ cfg.factor) (ht : cfg.factor = 1 / 2 ∨ target = 0)
    (h : runPS E cfg start target x0 fuel = .more s) :
    s.acc.head? = some start ∧ s.acc.IsChain (Contracts cfg.factor target) := by
  rcases runPS_ended E cfg start target _ (sound_true E) x0 trivial hn fuel with ⟨s', e, hI⟩ | ⟨c, s', e, -⟩
  swap
  · rw [e] at h; cases h
  rw [e] at h
  cases h
  refine ⟨hI.head, hI.chain.imp ?_⟩
  rintro a b rfl
  unfold Contracts
  rw [(C49_rule _ _ _).2 ht, norm_mul, Complex.norm_real, Real.norm_of_nonneg hf]

/-- **C49 fails for the power-series endgame**: with target 1, factor 1/4 and start time 3 the second sample time
is the target itself. -/
theorem C49_ps_refuted : ¬ C49_ps_full := by
  intro h
  obtain ⟨s, e, -⟩ := initPS_ok constEnv (fun _ _ _ _ => rfl) ⟨3, 1 / 4, 1 / 10 ^ 100, 1 / 10 ^ 11, 0, 10 ^ 4⟩ rfl
    3 1 7
  have hr : runPS constEnv ⟨3, 1 / 4, 1 / 10 ^ 100, 1 / 10 ^ 11, 0, 10 ^ 4⟩ 3 1 7 0 = .more s := by
    unfold runPS; rw [e]; rfl
  have h1 := h _ _ _ _ _ _ _ _ (by norm_num) (by norm_num) (by norm_num) hr
  rcases initPS_spec constEnv ⟨3, 1 / 4, 1 / 10 ^ 100, 1 / 10 ^ 11, 0, 10 ^ 4⟩ 3 1 _ (sound_true _) 7 trivial
    (by norm_num) with ⟨s', e', hI, -⟩ | ⟨c, s', e', -⟩
  swap
  · rw [e] at e'; cases e'
  rw [e] at e'
  cases e'
  have hlen : 2 ≤ s.acc.length := by
    have := hI.lo
    have h2 := hI.suf.length_le
    simp only at this
    omega
  have hhd := hI.head
  have hch := hI.chain
  match hacc : s.acc, hlen with
  | a :: b :: l, _ =>
    rw [hacc] at h1 hhd hch
    simp only [List.head?_cons, Option.some.injEq] at hhd
    subst hhd
    have h2 := hch.rel
    have h3 := h1.rel
    rw [h2] at h3
    unfold Contracts nextTimePS at h3
    norm_num at h3

/-! ### C48: termination -/

theorem loopPS_more (E : EgEnv X) (cfg : EgCfg) (start target : ℂ) :
    ∀ N s s', PInv E cfg start target (fun _ _ => True) s → loopPS E cfg target N s = .more s' →
      s'.acc.length = s.acc.length + N ∧
      (0 < N → ∃ t, s'.acc.getLast? = some t ∧ cfg.minTrack ≤ ‖t - target‖) := by
  intro N
  induction N with
  | zero =>
    intro s s' hI h
    simp only [loopPS, Res.more.injEq] at h
    subst h
    exact ⟨rfl, fun h => absurd h (lt_irrefl _)⟩
  | succ N ih =>
    intro s s' hI h
    rw [loopPS] at h
    rcases stepPS_spec E cfg start target _ (sound_true E) s hI with ⟨s1, e, hI1, t, ht, hacc, hmt, -⟩ | ⟨e, -⟩ |
      ⟨s1, e, -⟩ | ⟨c, s1, e, -⟩ | ⟨c, s1, e, -⟩ | ⟨s1, _, _, _, e, -⟩ <;> rw [e] at h <;> dsimp only at h
    · obtain ⟨h1, h2⟩ := ih s1 s' hI1 h
      refine ⟨by rw [h1, hacc, List.length_append, List.length_singleton]; omega, fun _ => ?_⟩
      rcases Nat.eq_zero_or_pos N with h0 | h0
      · subst h0
        simp only [loopPS, Res.more.injEq] at h
        subst h
        exact ⟨_, by rw [hacc]; simp, not_lt.1 hmt⟩
      · exact h2 h0
    all_goals cases h

theorem chain_last_dist (f : ℝ) (target : ℂ) : ∀ (l : List ℂ) (a b : ℂ), l.head? = some a → l.getLast? = some b →
    l.IsChain (Contracts f target) → ‖b - target‖ = f ^ (l.length - 1) * ‖a - target‖ := by
  intro l
  induction l with
  | nil => intro a b h; cases h
  | cons x l ih =>
    intro a b ha hb hc
    simp only [List.head?_cons, Option.some.injEq] at ha
    subst ha
    cases l with
    | nil =>
      simp only [List.getLast?_singleton, Option.some.injEq] at hb
      subst hb
      simp
    | cons y l =>
      rw [List.getLast?_cons_cons] at hb
      have := ih y b rfl hb hc.tail
      rw [this, show ‖y - target‖ = f * ‖x - target‖ from hc.rel]
      simp only [List.length_cons, Nat.add_sub_cancel]
      ring

/-- **C48, full statement**: with a sample factor strictly between 0 and 1 and a positive minimum track time,
every run of the power-series endgame stops after finitely many advances, whatever the tracker does. -/
def C48_full : Prop :=
  ∀ (X : Type) (E : EgEnv X) (cfg : EgCfg) (start target : ℂ) (x0 : X), 0 < cfg.n →
    0 < cfg.factor → cfg.factor < 1 → 0 < cfg.minTrack →
    ∃ N c s, runPS E cfg start target x0 N = .done c s

/-- **C48, partial, with the bound**: with target zero or factor one half, a run stops within `N ≥ 1` advances as
soon as `factor ^ (n + N - 1) * |start - target|` is below the minimum track time.  Missing: the other targets
and factors, where runs need not stop. -/
theorem C48_bound_partial (E : EgEnv X) (cfg : EgCfg) (start target : ℂ) (x0 : X) (N : ℕ) (hn : 0 < cfg.n)
    (hf : 0 ≤ cfg.factor) (hle : cfg.factor ≤ 1) (ht : cfg.factor = 1 / 2 ∨ target = 0) (hN : 0 < N)
    (hb : cfg.factor ^ (cfg.n + N - 1) * ‖start - target‖ < cfg.minTrack) :
    ∃ c s, runPS E cfg start target x0 N = .done c s := by
  rcases runPS_ended E cfg start target _ (sound_true E) x0 trivial hn N with ⟨s', e, hI⟩ | ⟨c, s', e, -⟩
  swap
  · exact ⟨c, s', e⟩
  exfalso
  have hch := (C49_ps_partial E cfg start target x0 N s' hn hf ht e)
  unfold runPS at e
  rcases initPS_spec E cfg start target _ (sound_true E) x0 trivial hn with ⟨s, e1, hI1, -⟩ | ⟨c, s, e1, -⟩ <;>
    rw [e1] at e <;> dsimp only at e
  swap
  · cases e
  obtain ⟨h1, h2⟩ := loopPS_more E cfg start target N s s' hI1 e
  obtain ⟨t, h3, h4⟩ := h2 hN
  have h5 := chain_last_dist cfg.factor target _ _ _ hch.1 h3 hch.2
  have h6 : cfg.n ≤ s.acc.length := le_trans hI1.lo hI1.suf.length_le
  -- more accepted times only bring the last one closer
  have h7 : cfg.factor ^ (s'.acc.length - 1) ≤ cfg.factor ^ (cfg.n + N - 1) :=
    pow_le_pow_of_le_one hf hle (by omega)
  have h8 := mul_le_mul_of_nonneg_right h7 (norm_nonneg (start - target))
  rw [h5] at h4
  linarith

/-- **C48, partial**: hence with target zero or factor one half every run stops. -/
theorem C48_partial (E : EgEnv X) (cfg : EgCfg) (start target : ℂ) (x0 : X) (hn : 0 < cfg.n)
    (hf : 0 < cfg.factor) (hf1 : cfg.factor < 1) (hm : 0 < cfg.minTrack)
    (ht : cfg.factor = 1 / 2 ∨ target = 0) :
    ∃ N c s, runPS E cfg start target x0 N = .done c s := by
  have hpos : 0 < ‖start - target‖ + 1 := by positivity
  obtain ⟨N, hN⟩ := exists_pow_lt_of_lt_one (div_pos hm hpos) hf1
  refine ⟨N + 1, C48_bound_partial E cfg start target x0 (N + 1) hn hf.le hf1.le ht (by omega) ?_⟩
  rw [lt_div_iff₀ hpos] at hN
  have h1 : cfg.factor ^ (cfg.n + (N + 1) - 1) ≤ cfg.factor ^ N := pow_le_pow_of_le_one hf.le hf1.le (by omega)
  have h2 : 0 ≤ cfg.factor ^ (cfg.n + (N + 1) - 1) := pow_nonneg hf.le _
  nlinarith [norm_nonneg (start - target)]

/-- An environment whose approximations never settle. -/
def countEnv : EgEnv ℝ :=
  ⟨fun _ _ _ x => (.success, x), fun _ x _ => (.success, x), fun k _ _ => k, fun a b => some |a - b|, fun _ => 0⟩

noncomputable def cfgQ : EgCfg := ⟨3, 1 / 4, 1 / 8, 1 / 10 ^ 11, 0, 10 ^ 4⟩

theorem countEnv_loop : ∀ N (s : PSt ℝ) (r : ℝ), 0 ≤ r → r ≤ 2 → s.times.getLast? = some (r : ℂ) → s.samples ≠ [] →
    above cfgQ.finalTol s.err → (∃ k : ℕ, s.prev = k ∧ s.k = k + 1) →
    ∃ s', loopPS countEnv cfgQ 1 N s = .more s' := by
  intro N
  induction N with
  | zero => intro s r _ _ _ _ _ _; exact ⟨s, rfl⟩
  | succ N ih =>
    intro s r h0 h2 ht hs ha ⟨k, hk, hk'⟩
    have hnt : nextTimePS cfgQ.factor 1 r = (((r + 1) / 4 : ℝ) : ℂ) := by
      unfold nextTimePS cfgQ; push_cast; ring
    obtain ⟨s', e, h3, h4, ⟨k', ts, xs, h5, h6, h7, h8⟩, -⟩ :=
      stepPS_ok countEnv cfgQ 1 s r (fun _ _ => rfl) (fun _ _ => rfl) ht hs ha
        (by
          rw [hnt, show (((r + 1) / 4 : ℝ) : ℂ) - 1 = (((r + 1) / 4 - 1 : ℝ) : ℂ) by push_cast; ring,
            Complex.norm_real, Real.norm_eq_abs, abs_of_nonpos (by linarith)]
          simp only [cfgQ]
          linarith)
        (fun _ _ _ => by simp [countEnv, cfgQ])
    rw [loopPS, e]
    rw [hnt] at h3
    refine ih s' ((r + 1) / 4) (by linarith) (by linarith) h3 h4 ?_ ⟨k', h6, h8⟩
    refine ⟨|(k' : ℝ) - k|, by rw [h7, h6, hk]; rfl, ?_⟩
    have h9 : (k : ℝ) + 1 ≤ k' := by exact_mod_cast (by omega : k + 1 ≤ k')
    rw [abs_of_nonneg (by linarith)]
    have : cfgQ.finalTol < 1 := by norm_num [cfgQ]
    linarith

/-- **C48 fails**: with target 1, sample factor 1/4 and start time 2, the sample times converge to 1/3, away from
the target; the minimum track time is never reached and a run whose approximations do not settle never stops. -/
theorem C48_refuted : ¬ C48_full ∧ ∀ N, ∃ s, runPS countEnv cfgQ 2 1 0 N = .more s := by
  have key : ∀ N, ∃ s, runPS countEnv cfgQ 2 1 0 N = .more s := by
    intro N
    obtain ⟨s, e, h1, h2, h3, -, -, -, ⟨k, ts, xs, h4, h5⟩, -⟩ :=
      initPS_ok countEnv (fun _ _ _ _ => rfl) cfgQ rfl 2 1 0
    unfold runPS
    rw [e]
    refine countEnv_loop N s (7 / 16) (by norm_num) (by norm_num) ?_ h2 ?_ ⟨k, h4, h5⟩
    · rw [h3]
      unfold nextTimePS cfgQ
      norm_num
    · rw [h1]; exact ⟨1, rfl, by norm_num [cfgQ]⟩
  refine ⟨fun h => ?_, key⟩
  obtain ⟨N, c, s, e⟩ := h ℝ countEnv cfgQ 2 1 0 (by norm_num [cfgQ]) (by norm_num [cfgQ]) (by norm_num [cfgQ])
    (by norm_num [cfgQ])
  obtain ⟨s', e'⟩ := key N
  rw [e] at e'
  cases e'

/-- A concrete case of `C48_bound_partial`: never-settling approximations, default factor, minimum track time
one hundredth: stops within 5 advances. -/
example : ∃ c s, runPS countEnv ⟨3, 1 / 2, 1 / 100, 1 / 10 ^ 11, 0, 10 ^ 4⟩ 1 0 0 5 = .done c s :=
  C48_bound_partial _ _ _ _ _ 5 (by norm_num) (by norm_num) (by norm_num) (.inr rfl) (by norm_num) (by norm_num)

/-! ### C50: the sample window -/

/-- The window: equally many times and samples, at most `n + 1`, the times being the most recent accepted ones in
order, and each sample on the path at its time. -/
structure Window (cfg : EgCfg) (P : ℂ → X → Prop) (s : PSt X) : Prop where
  len : s.times.length = s.samples.length
  bound : s.times.length ≤ cfg.n + 1
  recent : s.times <:+ s.acc
  full : s.times.length = min s.acc.length (cfg.n + 1)
  aligned : List.Forall₂ P s.times s.samples

/-- The state a run is in, finished or not. -/
inductive StateOf : Res (PSt X) → PSt X → Prop
  | done (c s) : StateOf (.done c s) s
  | more (s) : StateOf (.more s) s

/-- **C50, full statement**: in every state a run can be in or end with, the window is as above. -/
def C50_full : Prop :=
  ∀ (X : Type) (E : EgEnv X) (P : ℂ → X → Prop) (cfg : EgCfg) (start target : ℂ) (x0 : X) (fuel : ℕ) (s : PSt X),
    0 < cfg.n → Sound E P → P start x0 → StateOf (runPS E cfg start target x0 fuel) s →
    Window cfg P s

/-- **C50, partial**: the window property holds in every state at the head of the loop, after success, and after
the minimum track time is reached.  In the other endings the lists have equal length; it is at most `n + 1`
unless a refinement failed.  Missing: the bound after a failed refinement, where it is false, and alignment after a
failed track during the initial samples (the failed sample stays in the lists). -/
theorem C50_partial (E : EgEnv X) (P : ℂ → X → Prop) (cfg : EgCfg) (start target : ℂ) (x0 : X) (fuel : ℕ)
    (hn : 0 < cfg.n) (hP : Sound E P) (h0 : P start x0) :
    (∀ s, runPS E cfg start target x0 fuel = .more s → Window cfg P s) ∧
    (∀ s, runPS E cfg start target x0 fuel = .done .success s → Window cfg P s) ∧
    (∀ c s, runPS E cfg start target x0 fuel = .done c s → s.times.length = s.samples.length ∧
      s.times.length ≤ cfg.n + 2 ∧ ((∀ k x t, (E.refine k x t).1 ≠ c) → s.times.length ≤ cfg.n + 1)) ∧
    runPS E cfg start target x0 fuel ≠ .bad := by
  have hw : ∀ s, PInv E cfg start target P s → Window cfg P s := fun s h =>
    ⟨h.len, by rw [h.full]; omega, h.suf, h.full, h.al⟩
  rcases runPS_ended E cfg start target P hP x0 h0 hn fuel with ⟨s', e, hI⟩ | ⟨c, s', e, he⟩
  · rw [e]
    exact ⟨fun s h => by cases h; exact hw _ hI, fun s h => by (cases h), fun c s h => by (cases h), by simp⟩
  · rw [e]
    refine ⟨fun s h => by (cases h), fun s h => ?_, fun c s h => ?_, by simp⟩
    · cases h
      cases he with
      | converged _ hI => exact hw _ hI
      | trackFailed _ _ hc => exact absurd rfl hc
      | refineFailed _ _ hc => exact absurd rfl hc
    · cases h
      cases he with
      | converged _ hI => have := hw _ hI; exact ⟨this.len, by have := this.bound; omega, fun _ => this.bound⟩
      | minTime _ hI => have := hw _ hI; exact ⟨this.len, by have := this.bound; omega, fun _ => this.bound⟩
      | trackFailed _ _ hc h hl hb => exact ⟨hl, by omega, fun _ => hb⟩
      | refineFailed _ _ hc h hl hb =>
        obtain ⟨k, x, t, h⟩ := h
        exact ⟨hl, hb, fun h' => absurd h (h' k x t)⟩
      | security _ _ _ _ _ _ _ _ _ _ hl hb => exact ⟨hl, by omega, fun _ => hb⟩

/-- An environment whose refiner fails close to time zero. -/
noncomputable def failEnv : EgEnv ℝ :=
  ⟨fun _ _ _ x => (.success, x), fun _ x t => (if ‖t‖ < 1 / 10 then .failedToConverge else .success, x),
    fun k _ _ => k, fun a b => some |a - b|, fun _ => 0⟩

/-- **C50 fails**: when the refinement of a new sample fails, the window is left with `n + 2` entries. -/
theorem C50_refuted : ¬ C50_full ∧
    ∃ s, runPS failEnv cfgD 1 0 0 2 = .done .failedToConverge s ∧ s.times.length = cfgD.n + 2 := by
  have key : ∃ s, runPS failEnv cfgD 1 0 0 2 = .done .failedToConverge s ∧ s.times.length = cfgD.n + 2 := by
    obtain ⟨s, e, h1, h2, h3, hl, -, -, ⟨k, ts, xs, h4, h5⟩, -⟩ :=
      initPS_ok failEnv (fun _ _ _ _ => rfl) cfgD rfl 1 0 0
    have hnt : ∀ r : ℝ, nextTimePS cfgD.factor 0 r = ((r / 2 : ℝ) : ℂ) := by
      intro r; unfold nextTimePS cfgD; push_cast; ring
    rw [show (1 : ℂ) = ((1 : ℝ) : ℂ) by simp, hnt, hnt] at h3
    obtain ⟨s', e', g1, g2, ⟨k', ts', xs', g3, g4, g5, g6⟩, g7, g8⟩ :=
      stepPS_ok failEnv cfgD 0 s _ (fun _ _ => rfl)
        (fun _ _ => by
          rw [hnt]; unfold failEnv; dsimp only; rw [if_neg]
          rw [Complex.norm_real, Real.norm_eq_abs, abs_of_pos] <;> norm_num)
        h3 h2 (by rw [h1]; exact ⟨1, rfl, by norm_num [cfgD]⟩)
        (by
          rw [hnt, sub_zero, Complex.norm_real, Real.norm_eq_abs, abs_of_pos] <;> norm_num [cfgD])
        (fun _ _ _ => by simp [failEnv, cfgD])
    obtain ⟨x, hx⟩ : ∃ x, s'.samples.getLast? = some x := ⟨_, List.getLast?_eq_some_getLast g2⟩
    have g9 : above cfgD.finalTol s'.err := by
      refine ⟨|(k' : ℝ) - k|, by rw [g5, g4, h4]; rfl, ?_⟩
      have h9 : (k : ℝ) + 1 ≤ k' := by exact_mod_cast (by omega : k + 1 ≤ k')
      rw [abs_of_nonneg (by linarith)]
      have : cfgD.finalTol < 1 := by norm_num [cfgD]
      linarith
    rw [hnt] at g1
    have g10 : (failEnv.refine (s'.k + 1) x (nextTimePS cfgD.factor 0 ((1 / 2 / 2 / 2 : ℝ) : ℂ))).1 =
        .failedToConverge := by
      rw [hnt]; unfold failEnv; dsimp only; rw [if_pos]
      rw [Complex.norm_real, Real.norm_eq_abs, abs_of_pos] <;> norm_num
    have e'' : stepPS failEnv cfgD 0 s' = .done .failedToConverge
        { s' with times := s'.times ++ [nextTimePS cfgD.factor 0 ((1 / 2 / 2 / 2 : ℝ) : ℂ)],
                  samples := s'.samples ++ [x], k := s'.k + 2 } := by
      unfold stepPS
      rw [if_pos g9]
      unfold advancePS
      rw [g1, hx]
      dsimp only
      rw [if_neg (by
        rw [hnt, sub_zero, Complex.norm_real, Real.norm_eq_abs, abs_of_pos] <;> norm_num [cfgD]),
        if_neg (by simp [failEnv]), show (failEnv.track s'.k ((1 / 2 / 2 / 2 : ℝ) : ℂ)
          (nextTimePS cfgD.factor 0 ((1 / 2 / 2 / 2 : ℝ) : ℂ)) x).2 = x from rfl, g10, if_pos (by simp)]
      dsimp only
      rw [if_pos (by simp)]
      rfl
    have hlen : (s'.times ++ [nextTimePS cfgD.factor 0 ((1 / 2 / 2 / 2 : ℝ) : ℂ)]).length = cfgD.n + 2 := by
      simp only [List.length_append, List.length_singleton]
      rw [g8, hl]
      simp [cfgD]
    obtain ⟨s'', hs''⟩ : ∃ s'', s'' = { s' with
        times := s'.times ++ [nextTimePS cfgD.factor 0 ((1 / 2 / 2 / 2 : ℝ) : ℂ)],
        samples := s'.samples ++ [x], k := s'.k + 2 } := ⟨_, rfl⟩
    rw [← hs''] at e''
    refine ⟨s'', ?_, by rw [hs'']; exact hlen⟩
    · unfold runPS
      rw [e]
      dsimp only
      rw [loopPS, e']
      dsimp only
      rw [loopPS, e'']
  refine ⟨fun h => ?_, key⟩
  obtain ⟨s, e, hl⟩ := key
  have h1 := (h ℝ failEnv (fun _ _ => True) cfgD 1 0 0 2 s (by norm_num [cfgD]) (sound_true _) trivial
    (by rw [e]; exact .done _ _)).bound
  omega

/-- A concrete case of `C50_partial`: the identity path. -/
example : Sound (⟨fun _ _ t' _ => (.success, t'), fun _ x _ => (.success, x), fun _ _ _ => 0, fun _ _ => some 0,
    fun _ => 0⟩ : EgEnv ℂ) (fun t x => x = t) :=
  ⟨fun _ _ _ _ _ _ => rfl, fun _ _ _ h => h⟩

/-! ### C53: security truncation (power series) -/

/-- **C53 (power series)**.  Security enabled (`level ≤ 0`): a run that is still going or has succeeded never had two
consecutive approximations beyond the security norm; and a run stops for that reason (when neither tracker nor
refiner itself returned that code) only on the first such pair.  Security disabled (`level > 0`): a run never stops
for that reason. -/
theorem C53_ps (E : EgEnv X) (cfg : EgCfg) (start target : ℂ) (x0 : X) (fuel : ℕ) (hn : 0 < cfg.n)
    (ht : ∀ k t t' x, (E.track k t t' x).1 ≠ .securityMaxNormReached)
    (hr : ∀ k x t, (E.refine k x t).1 ≠ .securityMaxNormReached) :
    (cfg.level ≤ 0 → ∀ s, (runPS E cfg start target x0 fuel = .more s ∨
        runPS E cfg start target x0 fuel = .done .success s) →
      ∀ h a b h', s.hist = h ++ [a, b] ++ h' → E.dehomNorm a ≤ cfg.maxNorm ∨ E.dehomNorm b ≤ cfg.maxNorm) ∧
    (cfg.level ≤ 0 → ∀ s, runPS E cfg start target x0 fuel = .done .securityMaxNormReached s →
      ∃ h a b, s.hist = h ++ [a, b] ∧ cfg.maxNorm < E.dehomNorm a ∧ cfg.maxNorm < E.dehomNorm b ∧
        ∀ h1 a' b' h2, h ++ [a] = h1 ++ [a', b'] ++ h2 →
          E.dehomNorm a' ≤ cfg.maxNorm ∨ E.dehomNorm b' ≤ cfg.maxNorm) ∧
    (0 < cfg.level → ∀ s, runPS E cfg start target x0 fuel ≠ .done .securityMaxNormReached s) := by
  have hchain : ∀ l : List X, l.IsChain (NotBothLarge E cfg) → ∀ h a b h', l = h ++ [a, b] ++ h' →
      E.dehomNorm a ≤ cfg.maxNorm ∨ E.dehomNorm b ≤ cfg.maxNorm := by
    intro l hl h a b h' e
    rw [e, List.append_assoc, List.isChain_append] at hl
    have := hl.2.1
    simp only [List.cons_append, List.nil_append, List.isChain_cons_cons] at this
    by_contra hcon
    push Not at hcon
    exact this.1 hcon
  rcases runPS_ended E cfg start target _ (sound_true E) x0 trivial hn fuel with ⟨s', e, hI⟩ | ⟨c, s', e, he⟩
  · rw [e]
    refine ⟨fun hl s h => ?_, fun _ s h => by (cases h), fun _ s h => by cases h⟩
    rcases h with h | h <;> cases h
    exact hchain _ (hI.sec hl)
  · rw [e]
    refine ⟨fun hl s h => ?_, fun hl s h => ?_, fun hl s h => ?_⟩
    · rcases h with h | h <;> cases h
      cases he with
      | converged _ hI => exact hchain _ (hI.sec hl)
      | trackFailed _ _ hc => exact absurd rfl hc
      | refineFailed _ _ hc => exact absurd rfl hc
    · cases h
      cases he with
      | security _ h a b _ hh _ h1 h2 h3 => exact ⟨h, a, b, hh, h1, h2, hchain _ h3⟩
      | trackFailed _ _ hc h => obtain ⟨k, t, t', x, h⟩ := h; exact absurd h (ht k t t' x)
      | refineFailed _ _ hc h => obtain ⟨k, x, t, h⟩ := h; exact absurd h (hr k x t)
    · cases h
      cases he with
      | security _ h a b hl' => omega
      | trackFailed _ _ hc h => obtain ⟨k, t, t', x, h⟩ := h; exact absurd h (ht k t t' x)
      | refineFailed _ _ hc h => obtain ⟨k, x, t, h⟩ := h; exact absurd h (hr k x t)

/-- A concrete case of the hypotheses of `C53_ps`: the constant environment, with a security norm that the
approximations exceed; the run stops for that reason after the second approximation. -/
example : (∀ k t t' x, (constEnv.track k t t' x).1 ≠ .securityMaxNormReached) ∧
    (∀ k x t, (constEnv.refine k x t).1 ≠ .securityMaxNormReached) ∧
    ∃ s, runPS constEnv ⟨2, 1 / 2, 1 / 100, 1 / 10, 0, 4⟩ 1 0 7 1 = .done .securityMaxNormReached s := by
  refine ⟨fun _ _ _ _ => by simp [constEnv], fun _ _ _ => by simp [constEnv], ?_⟩
  have h1 : above (1 / 10) (some (1 : ℝ)) := ⟨1, rfl, by norm_num⟩
  have h2 : ¬ ‖nextTimePS (1 / 2) 0 (nextTimePS (1 / 2) 0 1) - 0‖ < 1 / 100 := by
    unfold nextTimePS; norm_num
  have h3 : (4 : ℝ) < |5| := by rw [abs_of_pos] <;> norm_num
  simp only [runPS, initPS, initialSamples, initialLoop, constEnv, loopPS, stepPS, advancePS, refineAll,
    extrapolatePS, ne_eq, not_true_eq_false, if_false, if_true, List.getLast?_cons_cons, List.getLast?_singleton,
    List.nil_append, List.cons_append, h1, h2, h3, Nat.reduceSub, le_refl, List.length_cons, List.length_nil,
    Nat.reduceAdd, Nat.lt_irrefl]
  exact ⟨_, rfl⟩

end B2.Endgame
