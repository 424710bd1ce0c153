/-
Property theorems about the step sizes of a `TrackPath` call: C89 (largest step), C90 (least number of steps).
-/
import Verif.Track.PropsCounters
import Verif.Track.PropsJump

namespace B2.Track

set_option linter.unusedSectionVars false

open Classical

variable {X : Type} [Add X]

theorem nextDelta_le (s : St X) (h : 0 ≤ s.step) : ‖nextDelta s‖ ≤ s.step := by
  unfold nextDelta
  rw [abs_of_nonneg h]
  split_ifs with hc
  · exact hc.le
  · by_cases h0 : ‖s.endtime - s.time‖ = 0
    · rw [h0]; simpa using h
    · rw [norm_div, norm_mul, Complex.norm_real, Complex.norm_real, Real.norm_of_nonneg h, norm_norm,
        mul_div_assoc, div_self h0, mul_one]

/-- Specification: every step attempted during the call is at most `L` long: whenever a pass gets as far as calling
the predictor, the time increment it uses has modulus at most `L`. -/
def StepsWithin (cfg : Cfg) (env : Env X) (T : Tracker X) (s0 : St X) (L : ℝ) : Prop :=
  ∀ n s, runAt cfg env T s0 n = .running n s → ¬ relSmall s.time s.endtime cfg.eps → T.pre s = .success →
    ‖nextDelta s‖ ≤ L

/-- **C89 in full**, for the fixed-precision trackers: no attempted step is longer than `max_step_size` ("the largest
allowed step size", config.hpp line 80). -/
def C89_full : Prop :=
  ∀ (cfg : Cfg) (env : Env ℤ) (oldStep : ℝ) (oldDelta t0 t1 : ℂ) (x0 : ℤ),
    0 < cfg.failFactor → cfg.failFactor < 1 → 0 < cfg.minStep → 0 < cfg.initialStep → 0 < cfg.maxStep →
    StepsWithin cfg env (fixedTracker cfg env) (fixedInit cfg true oldStep oldDelta t0 t1 x0) cfg.maxStep

/-- **C89, fixed precision, the part that holds**: no attempted step is longer than the initial step size, nor than the
length of the path divided by `min_num_steps`; so none is longer than `max_step_size` if `initial_step_size` is not.
(`max_step_size` itself is never looked at.) -/
theorem C89_fixed_partial (cfg : Cfg) (env : Env X) (oldStep : ℝ) (oldDelta t0 t1 : ℂ) (x0 : X)
    (hf0 : 0 < cfg.failFactor) (hf1 : cfg.failFactor < 1) (hi : 0 ≤ cfg.initialStep) :
    StepsWithin cfg env (fixedTracker cfg env) (fixedInit cfg true oldStep oldDelta t0 t1 x0)
      (min cfg.initialStep (‖t0 - t1‖ / cfg.minNumSteps)) := by
  intro n s hr _ _
  obtain ⟨-, e2⟩ := fixed_counts cfg env _ rfl rfl n s hr
  have h0 : 0 ≤ min cfg.initialStep (‖t0 - t1‖ / cfg.minNumSteps) := le_min hi (by positivity)
  have e3 : s.step = min cfg.initialStep (‖t0 - t1‖ / cfg.minNumSteps) * cfg.failFactor ^ s.nFail := by
    rw [e2]; simp [fixedInit]
  have hp : cfg.failFactor ^ s.nFail ≤ 1 := pow_le_one₀ hf0.le hf1.le
  have hp0 : 0 ≤ cfg.failFactor ^ s.nFail := by positivity
  refine (nextDelta_le s (by rw [e3]; positivity)).trans ?_
  rw [e3]
  nlinarith

/-- **C89, adaptive precision, the part that holds**: no attempted step is longer than `max_step_size`, if the initial
step size is not, and if `10⁻¹³` times the length of the path is not either (after a criterion failure the
step is raised to the least one representable at the current precision, whatever the maximum). -/
theorem C89_amp_partial (cfg : Cfg) (ac : AmpCfg) {V : Type} [NormedAddCommGroup V] [NormedSpace ℂ V] (env : Env V) (refine' : ℕ → V → Option V)
    (oldStep : ℝ) (oldDelta t0 t1 : ℂ) (p0 : ℕ) (x0 : V)
    (hf0 : 0 < cfg.failFactor) (hf1 : cfg.failFactor < 1) (hmin : 0 < cfg.minStep) (hmax : ac.maxPrec ≤ 1000)
    (hi : cfg.initialStep ≤ cfg.maxStep) (hl : (10 : ℝ) ^ (-13 : ℤ) * ‖t1 - t0‖ ≤ cfg.maxStep)
    (h150 : (10 : ℝ) ^ (-150 : ℤ) ≤ cfg.maxStep) (hp : 16 ≤ p0) :
    StepsWithin cfg env (ampTracker cfg ac env)
      (ampInit cfg ac refine' true oldStep oldDelta t0 t1 p0 x0).2 cfg.maxStep := by
  intro n s hr _ hpre
  have hge : ∀ k, p0 ≤ bump^[k] p0 := fun k => by have := le_bump_iter p0 k; omega
  have h16 : 16 ≤ (ampInit cfg ac refine' true oldStep oldDelta t0 t1 p0 x0).2.prec := by
    simp only [ampInit]
    rcases C41_initial ac.maxPrec refine' p0 x0 with ⟨k, y, e, -⟩ | ⟨k, e, -⟩ <;> rw [e] <;>
      exact hp.trans (hge k)
  obtain ⟨k1, -⟩ := amp_step_le cfg ac env (ampInit cfg ac refine' true oldStep oldDelta t0 t1 p0 x0).2 cfg.maxStep
    ‖t1 - t0‖ hf0 hf1 hmin hmax (le_refl _) (by simp only [ampInit, if_true]; exact (min_le_left _ _).trans hi)
    (le_refl _) hl h150 h16 n s hr
  have hspos : 0 ≤ s.step := by
    simp only [ampTracker] at hpre
    unfold ampPre at hpre
    split_ifs at hpre with c1 c2
    push Not at c2
    linarith
  exact (nextDelta_le s hspos).trans k1

/-- **C89 fails** when `initial_step_size` exceeds `max_step_size`: the first step already is too long. -/
theorem C89_refuted : ¬ C89_full := by
  intro H
  have h := H { cfgE with maxStep := 1 / 10 } (easy 0) 0 0 1 0 3 (by norm_num [cfgE]) (by norm_num [cfgE])
    (by norm_num [cfgE]) (by norm_num [cfgE]) (by norm_num) 0
    (fixedInit { cfgE with maxStep := 1 / 10 } true 0 0 1 0 3) rfl
  have e : (fixedInit { cfgE with maxStep := 1 / 10 } true 0 0 1 0 3) = stE 1 (1 / 4) 3 0 0 := by
    simp [fixedInit, stE, cfgE]
    norm_num
  rw [e] at h
  have h1 := h (relSmall_zero (by norm_num) (by norm_num [cfgE])) (by
    simp only [fixedTracker, fixedPre, stE, cfgE]
    rw [if_neg (by omega), if_neg (by norm_num)])
  rw [nextDelta_stE (by norm_num) (by norm_num)] at h1
  rw [Complex.norm_real] at h1
  norm_num at h1

/-- Witness for `C89_amp_partial`: settings meeting the hypotheses. -/
example : 0 < cfgE.failFactor ∧ cfgE.failFactor < 1 ∧ 0 < cfgE.minStep ∧ acA.maxPrec ≤ 1000 ∧
    cfgE.initialStep ≤ cfgE.maxStep ∧ (10 : ℝ) ^ (-13 : ℤ) * ‖(0 : ℂ) - 1‖ ≤ cfgE.maxStep ∧
    (10 : ℝ) ^ (-150 : ℤ) ≤ cfgE.maxStep := by
  refine ⟨?_, ?_, ?_, ?_, ?_, ?_, ?_⟩ <;> norm_num [cfgE, acA]

/-! ### C90 -/

/-- Specification: a call that returns `Success` accepted at least `min_num_steps` steps. -/
def AtLeastMin (cfg : Cfg) (env : Env X) (T : Tracker X) (s0 : St X) : Prop :=
  ∀ n s o, runAt cfg env T s0 n = .done .success s o → cfg.minNumSteps ≤ s.nSucc

/-- The distance travelled is at most the number of accepted steps times the initial step size. -/
theorem fixed_travel (cfg : Cfg) (env : Env X) (s0 : St X) (h0 : s0.nSucc = 0) (h1 : s0.nFail = 0)
    (hs : 0 ≤ s0.step) (hf0 : 0 < cfg.failFactor) (hf1 : cfg.failFactor < 1) :
    ∀ n s, fixedRun cfg env s0 n = .running n s → ‖s.time - s0.time‖ ≤ s.nSucc * s0.step := by
  intro n
  induction n with
  | zero => intro s h; simp [fixedRun, runAt] at h; subst h; simp [h0]
  | succ n ih =>
    intro s h
    have h' := h
    unfold fixedRun at h ih
    rw [runAt_succ] at h
    cases hr : runAt cfg env (fixedTracker cfg env) s0 n with
    | done c s' o => rw [hr] at h; cases h
    | running i s' =>
      have := runAt_index hr
      subst this
      have e1 := ih s' hr
      obtain ⟨-, e2⟩ := fixed_counts cfg env s0 h0 h1 _ s' hr
      have hp : cfg.failFactor ^ s'.nFail ≤ 1 := pow_le_one₀ hf0.le hf1.le
      have hp0 : 0 ≤ cfg.failFactor ^ s'.nFail := by positivity
      have hst : s'.step ≤ s0.step := by rw [e2]; nlinarith
      have hnd := (nextDelta_le s' (by rw [e2]; positivity)).trans hst
      rw [hr] at h
      rcases loopStep_cases (cfg := cfg) (env := env) (T := fixedTracker cfg env) i s' with
        ⟨h1, e⟩ | ⟨h1, h2, e⟩ | ⟨h1, h2, _, _, e⟩ | ⟨h1, h2, h3, e⟩ | ⟨h1, h2, h3, e⟩
      · rw [e] at h; cases h
      · rw [e] at h; cases h
      · rw [e] at h; cases h
      · rw [e] at h
        simp only [Run.running.injEq] at h
        rcases fixedIter_cases cfg env i { s' with delta := nextDelta s' } with
          ⟨q, p, a1, a2, a3⟩ | ⟨_, a2, _⟩
        · rw [← h.2]
          simp only [fixedTracker, a3, baseSuccess]
          push_cast
          calc ‖s'.time + nextDelta s' - s0.time‖ = ‖(s'.time - s0.time) + nextDelta s'‖ := by congr 1; ring
            _ ≤ ‖s'.time - s0.time‖ + ‖nextDelta s'‖ := norm_add_le _ _
            _ ≤ s'.nSucc * s0.step + s0.step := add_le_add e1 hnd
            _ = _ := by ring
        · exact absurd h3 a2
      · rw [e] at h
        simp only [Run.running.injEq] at h
        rcases fixedIter_cases cfg env i { s' with delta := nextDelta s' } with
          ⟨q, p, a1, a2, a3⟩ | ⟨_, a2, a3⟩
        · simp only [fixedTracker, a3, ne_eq, not_true_eq_false] at h3
        · rw [← h.2]
          simp only [fixedTracker, a3, baseFail]
          exact e1

/-- **C90 in full**: for both kinds of tracker, a successful call takes at least `min_num_steps` steps ("the minimum
number of steps allowed during tracking", config.hpp line 88), tracking to 0. -/
def C90_full : Prop :=
  ∀ (cfg : Cfg) (ac : AmpCfg) (env : Env ℤ) (refine' : ℕ → ℤ → Option ℤ) (t0 : ℂ) (x0 : ℤ),
    0 < cfg.failFactor → cfg.failFactor < 1 → 0 < cfg.minStep → 0 < cfg.initialStep → cfg.eps < 1 → t0 ≠ 0 →
    AtLeastMin cfg env (fixedTracker cfg env) (fixedInit cfg true 0 0 t0 0 x0) ∧
    AtLeastMin cfg env (ampTracker cfg ac env) (ampInit cfg ac refine' true 0 0 t0 0 16 x0).2

/-- **C90, fixed precision**: tracking to 0 (the target time of every homotopy the solver builds), from anywhere else,
a successful call has taken at least `min_num_steps` steps. -/
theorem C90_fixed_partial (cfg : Cfg) (env : Env X) (oldStep : ℝ) (oldDelta t0 : ℂ) (x0 : X)
    (hf0 : 0 < cfg.failFactor) (hf1 : cfg.failFactor < 1) (hi : 0 ≤ cfg.initialStep) (heps : cfg.eps < 1)
    (ht : t0 ≠ 0) :
    AtLeastMin cfg env (fixedTracker cfg env) (fixedInit cfg true oldStep oldDelta t0 0 x0) := by
  intro n
  induction n with
  | zero => intro s o h; simp [runAt] at h
  | succ n ih =>
    intro s o h
    rw [runAt_succ] at h
    cases hr : runAt cfg env (fixedTracker cfg env) (fixedInit cfg true oldStep oldDelta t0 0 x0) n with
    | done c s1 o1 => rw [hr] at h; cases h; exact ih _ _ hr
    | running i s1 =>
      have hi' := runAt_index hr
      subst hi'
      have htr := fixed_travel cfg env (fixedInit cfg true oldStep oldDelta t0 0 x0) rfl rfl
        (by simp only [fixedInit, if_true]; exact le_min hi (by positivity)) hf0 hf1 i s1 hr
      have hend := ((run_inv (s0 := fixedInit cfg true oldStep oldDelta t0 0 x0) (fixed_faithful cfg env) i).1 s1 hr).2
      rw [hr] at h
      rcases loopStep_cases (cfg := cfg) (env := env) (T := fixedTracker cfg env) i s1 with
        ⟨h1, e⟩ | ⟨h1, h2, e⟩ | ⟨h1, h2, _, _, e⟩ | ⟨h1, h2, h3, e⟩ | ⟨h1, h2, h3, e⟩
      · rw [e] at h
        cases h
        have he : s.endtime = 0 := hend
        have hz : s.time = 0 := by
          rw [he] at h1
          rcases h1 with h1 | ⟨h1, h2⟩ | ⟨h1, _⟩
          · exact h1
          · exfalso
            rw [sub_zero, div_self (norm_ne_zero_iff.2 h1)] at h2
            linarith
          · exact absurd rfl h1
        rw [hz] at htr
        simp only [fixedInit, if_true, zero_sub, norm_neg, sub_zero] at htr
        by_contra hlt
        push Not at hlt
        have hm : 0 < cfg.minNumSteps := by omega
        have hm' : (0 : ℝ) < cfg.minNumSteps := by exact_mod_cast hm
        have htp : 0 < ‖t0‖ := norm_pos_iff.2 ht
        have h3 : (s.nSucc : ℝ) < cfg.minNumSteps := by exact_mod_cast hlt
        have h4 : ‖t0‖ ≤ s.nSucc * (‖t0‖ / cfg.minNumSteps) :=
          htr.trans (mul_le_mul_of_nonneg_left (min_le_right _ _) (by positivity))
        rw [← mul_div_assoc, le_div_iff₀ hm'] at h4
        nlinarith
      · rw [e] at h
        simp only [Run.done.injEq] at h
        exact absurd h.1 h2
      · rw [e] at h; cases h
      · rw [e] at h; cases h
      · rw [e] at h; cases h

end B2.Track
