/-
Property theorems for the fixed-precision trackers: C37, C38, C39, C40.
-/
import Verif.Track.PropsLoop
import Mathlib.Algebra.Order.Archimedean.Basic

namespace B2.Track

set_option linter.unusedSectionVars false
set_option linter.unusedSimpArgs false

open Classical

variable {X : Type} [Add X]

/-- The corrector never reports `GoingToInfinity` (C43 lists its codes). -/
theorem correctAt_codes (cfg : Cfg) (env : Env X) (crit) (i q t) :
    (correctAt cfg env crit i q t).1 ≠ .goingToInfinity := by
  unfold correctAt
  dsimp only
  rcases (correct_codes (X := X) (R := ℝ)
    { solve := env.solve i t, norm := env.norm, tol := cfg.tol, minIts := cfg.minNewton,
      maxIts := cfg.maxNewton, crit := crit } q).1 with h | h | h | h <;> rw [h] <;> simp

theorem fixedIter_cases (cfg : Cfg) (env : Env X) (i : ℕ) (s : St X) :
    (∃ q p, env.predict i s.space s.time s.delta = .ok q ∧
      correctAt cfg env (fun _ _ _ => true) i q (s.time + s.delta) = (.success, p) ∧
      fixedIter cfg env i s = (.success, { s with space := p })) ∨
    ((∀ q p, env.predict i s.space s.time s.delta = .ok q →
        correctAt cfg env (fun _ _ _ => true) i q (s.time + s.delta) ≠ (.success, p)) ∧
      (fixedIter cfg env i s).1 ≠ .success ∧
      (fixedIter cfg env i s).2 = { s with step := cfg.failFactor * s.step }) := by
  unfold fixedIter
  cases hp : env.predict i s.space s.time s.delta with
  | ok q =>
    dsimp only
    rw [if_neg (correctAt_codes cfg env _ i q _)]
    by_cases h : (correctAt cfg env (fun _ _ _ => true) i q (s.time + s.delta)).1 = .success
    · left
      refine ⟨q, (correctAt cfg env (fun _ _ _ => true) i q (s.time + s.delta)).2, rfl, ?_, ?_⟩
      · exact Prod.ext h rfl
      · rw [if_neg (by simpa using h)]
    · right
      rw [if_pos h]
      refine ⟨?_, h, rfl⟩
      intro q' p e e2
      cases e
      rw [e2] at h
      exact h rfl
  | firstFail => right; refine ⟨?_, by simp [Predicted.code], rfl⟩; intro q p e; cases e
  | solveFail => right; refine ⟨?_, by simp [Predicted.code], rfl⟩; intro q p e; cases e
  | higherPrec => right; refine ⟨?_, by simp [Predicted.code], rfl⟩; intro q p e; cases e

theorem fixed_faithful (cfg : Cfg) (env : Env X) :
    Faithful cfg env (fixedTracker cfg env) (fun _ _ _ _ _ => true) where
  ok := by
    intro i s h
    rcases fixedIter_cases cfg env i s with ⟨q, p, h1, h2, h3⟩ | ⟨_, h2, _⟩
    · refine ⟨q, h1, ?_⟩
      simp only [fixedTracker, h3]
      exact h2
    · exact absurd h h2
  conv := by
    intro i s q p h1 h2
    rcases fixedIter_cases cfg env i s with ⟨q', p', h1', h2', h3'⟩ | ⟨h, _, _⟩
    · simp only [fixedTracker, h3']
    · exact absurd h2 (h q p h1)
  bad := by
    intro i s h
    rcases fixedIter_cases cfg env i s with ⟨q', p', h1', h2', h3'⟩ | ⟨_, _, h3⟩
    · simp only [fixedTracker, h3'] at h; exact absurd rfl h
    · simp only [fixedTracker, h3]
  times := by
    intro i s
    rcases fixedIter_cases cfg env i s with ⟨q', p', h1', h2', h3'⟩ | ⟨_, _, h3⟩
    · simp [fixedTracker, h3']
    · simp [fixedTracker, h3]
  onFail := by intro s; simp [fixedTracker]
  pre := by
    intro s
    simp only [fixedTracker, fixedPre]
    split_ifs <;> simp

/-- A call of `TrackPath` on a fixed-precision tracker after `n` passes of the loop. -/
noncomputable def fixedRun (cfg : Cfg) (env : Env X) (s0 : St X) (n : ℕ) : Run X :=
  runAt cfg env (fixedTracker cfg env) s0 n

/-- Specification abbreviation: the last accepted step of a fixed-precision call. -/
def FixedLast (cfg : Cfg) (env : Env X) (s0 : St X) (n : ℕ) (t : ℂ) (p : X) : Prop :=
  LastAccepted cfg env (fixedTracker cfg env) (fun _ _ _ _ _ => true) s0 n t p

/-- C37 in full, for the fixed-precision trackers. -/
def C37_full : Prop :=
  ∀ (X : Type) [Add X] (cfg : Cfg) (env : Env X) (s0 : St X) (n : ℕ) (c : Code) (s : St X)
    (o : Option X), fixedRun cfg env s0 n = .done c s o →
    (c = .success → Close s.time s0.endtime cfg.eps ∧ o = some s.space) ∧
    (c ≠ .success → o = none) ∧ FixedLast cfg env s0 n s.time s.space

/-- C37 for every outcome other than truncation at infinity (where it fails, `C37_refuted`). -/
theorem C37_partial (cfg : Cfg) (env : Env X) (s0 : St X) {n : ℕ} {c : Code} {s : St X}
    {o : Option X} (h : fixedRun cfg env s0 n = .done c s o) (hc : c ≠ .goingToInfinity) :
    (c = .success → Close s.time s0.endtime cfg.eps ∧ o = some s.space) ∧
    (c ≠ .success → o = none) ∧ FixedLast cfg env s0 n s.time s.space :=
  returned_generic (fixed_faithful cfg env) h hc

/-- C38 for the fixed-precision trackers: throughout the call the time stays on the segment from start
to end; a pass either leaves it unchanged — and then no step was accepted in this pass, or the path was
truncated — or accepts a step computed for the new time, which lies between the old time and the end
and strictly closer to the end. -/
theorem C38_time (cfg : Cfg) (env : Env X) (s0 : St X) (hmin : 0 < cfg.minStep) (n : ℕ) :
    (fixedRun cfg env s0 n).st.time ∈ segment ℝ s0.time s0.endtime ∧
    (fixedRun cfg env s0 n).st.endtime = s0.endtime ∧
    ((((fixedRun cfg env s0 (n + 1)).st.time = (fixedRun cfg env s0 n).st.time) ∧
        ((∀ t p, ¬ Accepted cfg env (fixedTracker cfg env) (fun _ _ _ _ _ => true) s0 n t p) ∨
          ∃ s, fixedRun cfg env s0 (n + 1) = .done .goingToInfinity s none)) ∨
      ((∃ p, Accepted cfg env (fixedTracker cfg env) (fun _ _ _ _ _ => true) s0 n
          (fixedRun cfg env s0 (n + 1)).st.time p) ∧
        (fixedRun cfg env s0 (n + 1)).st.time ∈
          segment ℝ (fixedRun cfg env s0 n).st.time s0.endtime ∧
        ‖s0.endtime - (fixedRun cfg env s0 (n + 1)).st.time‖ <
          ‖s0.endtime - (fixedRun cfg env s0 n).st.time‖)) := by
  refine time_generic (fixed_faithful cfg env) ?_ n
  intro s hs
  simp only [fixedTracker, fixedPre] at hs
  split_ifs at hs with h1 h2
  linarith

/-! ### termination and step size -/

/-- Invariant: successes and failures add up to the number of passes, and the step size is the
initial one times the failure factor to the number of failures. -/
theorem fixed_counts (cfg : Cfg) (env : Env X) (s0 : St X) (h0 : s0.nSucc = 0) (h1 : s0.nFail = 0) :
    ∀ n s, fixedRun cfg env s0 n = .running n s →
      s.nSucc + s.nFail = n ∧ s.step = s0.step * cfg.failFactor ^ s.nFail := by
  intro n
  induction n with
  | zero => intro s h; simp [fixedRun, runAt] at h; subst h; simp [h0, h1]
  | succ n ih =>
    intro s h
    unfold fixedRun at h ih
    rw [runAt_succ] at h
    cases hr : runAt cfg env (fixedTracker cfg env) s0 n with
    | done c s' o => rw [hr] at h; cases h
    | running i s' =>
      have := runAt_index hr
      subst this
      obtain ⟨e1, e2⟩ := ih s' hr
      rw [hr] at h
      rcases loopStep_cases (cfg := cfg) (env := env) (T := fixedTracker cfg env) i s' with
        ⟨h1, e⟩ | ⟨h1, h2, e⟩ | ⟨h1, h2, _, _, e⟩ | ⟨h1, h2, h3, e⟩ | ⟨h1, h2, h3, e⟩
      · rw [e] at h; cases h
      · rw [e] at h; cases h
      · rw [e] at h; cases h
      · rw [e] at h
        simp only [Run.running.injEq] at h
        rcases fixedIter_cases cfg env i { s' with delta := nextDelta s' } with
          ⟨q, p, a1, a2, a3⟩ | ⟨_, a2, _⟩
        · rw [← h.2]
          simp only [fixedTracker, a3, baseSuccess]
          exact ⟨by omega, e2⟩
        · exact absurd h3 a2
      · rw [e] at h
        simp only [Run.running.injEq] at h
        rcases fixedIter_cases cfg env i { s' with delta := nextDelta s' } with
          ⟨q, p, a1, a2, a3⟩ | ⟨_, a2, a3⟩
        · simp only [fixedTracker, a3, ne_eq, not_true_eq_false] at h3
        · rw [← h.2]
          simp only [fixedTracker, a3, baseFail]
          refine ⟨by omega, ?_⟩
          rw [e2, pow_succ]; ring

/-- C39: for every behaviour of the system, a fixed-precision `TrackPath` returns, within
`max_num_steps + F + 1` passes, where `F` is any number of failures that shrinks the initial step
below the minimum. -/
theorem C39_bound (cfg : Cfg) (env : Env X) (s0 : St X) (h0 : s0.nSucc = 0) (h1 : s0.nFail = 0)
    (hf0 : 0 < cfg.failFactor) (hf1 : cfg.failFactor < 1) (hs : 0 < s0.step) (F : ℕ)
    (hF : s0.step * cfg.failFactor ^ F < cfg.minStep) :
    ∃ c s o, fixedRun cfg env s0 (cfg.maxNumSteps + F + 1) = .done c s o := by
  cases hr : fixedRun cfg env s0 (cfg.maxNumSteps + F + 1) with
  | done c s o => exact ⟨c, s, o, rfl⟩
  | running i s =>
    exfalso
    have hi := runAt_index hr
    subst hi
    -- look at the state one pass before
    have hr' := hr
    unfold fixedRun at hr'
    rw [runAt_succ] at hr'
    cases hp : runAt cfg env (fixedTracker cfg env) s0 (cfg.maxNumSteps + F) with
    | done c s' o => rw [hp] at hr'; cases hr'
    | running i s' =>
      have hi := runAt_index hp
      subst hi
      obtain ⟨e1, e2⟩ := fixed_counts cfg env s0 h0 h1 _ s' hp
      rw [hp] at hr'
      have hpre : fixedPre cfg s' = .success := by
        rcases loopStep_cases (cfg := cfg) (env := env) (T := fixedTracker cfg env)
          (cfg.maxNumSteps + F) s' with
          ⟨h1, e⟩ | ⟨h1, h2, e⟩ | ⟨h1, h2, _, _, e⟩ | ⟨h1, h2, h3, e⟩ | ⟨h1, h2, h3, e⟩
        · rw [e] at hr'; cases hr'
        · rw [e] at hr'; cases hr'
        · exact h2
        · exact h2
        · exact h2
      unfold fixedPre at hpre
      split_ifs at hpre with p1 p2
      have hge : F ≤ s'.nFail := by omega
      apply p2
      rw [e2]
      calc s0.step * cfg.failFactor ^ s'.nFail ≤ s0.step * cfg.failFactor ^ F := by
            apply mul_le_mul_of_nonneg_left _ hs.le
            exact pow_le_pow_of_le_one hf0.le hf1.le hge
        _ < cfg.minStep := hF

/-- C39, existence of the bound: with a positive minimum step and a failure factor in (0,1) every call
returns (an initial step below the minimum makes the very first check fail). -/
theorem C39_terminates (cfg : Cfg) (env : Env X) (s0 : St X) (h0 : s0.nSucc = 0) (h1 : s0.nFail = 0)
    (hf0 : 0 < cfg.failFactor) (hf1 : cfg.failFactor < 1) (hmin : 0 < cfg.minStep) :
    ∃ n c s o, fixedRun cfg env s0 n = .done c s o := by
  by_cases hs : 0 < s0.step
  · obtain ⟨F, hF⟩ := exists_pow_lt_of_lt_one (div_pos hmin hs) hf1
    rw [lt_div_iff₀ hs, mul_comm] at hF
    obtain ⟨c, s, o, h⟩ := C39_bound cfg env s0 h0 h1 hf0 hf1 hs F hF
    exact ⟨_, c, s, o, h⟩
  · refine ⟨1, ?_⟩
    unfold fixedRun
    rw [runAt_succ]
    rcases loopStep_cases (cfg := cfg) (env := env) (T := fixedTracker cfg env) 0 s0 with
      ⟨h1, e⟩ | ⟨h1, h2, e⟩ | ⟨h1, h2, _⟩ | ⟨h1, h2, _⟩ | ⟨h1, h2, _⟩
    · exact ⟨_, _, _, e⟩
    · exact ⟨_, _, _, e⟩
    all_goals
      exfalso
      simp only [fixedTracker, fixedPre] at h2
      split_ifs at h2 with p1 p2
      linarith

/-- The failing half of the step-size policy does hold: after any number of passes the step size is
the initial one times the failure factor to the number of failed steps. In particular successful steps
never change it, so the growing half of C40 fails (`C40_refuted`). -/
theorem C40_partial (cfg : Cfg) (env : Env X) (s0 : St X) (h0 : s0.nSucc = 0) (h1 : s0.nFail = 0)
    {n : ℕ} {s : St X} (h : fixedRun cfg env s0 n = .running n s) :
    s.step = s0.step * cfg.failFactor ^ s.nFail ∧ s.nSucc + s.nFail = n :=
  ⟨(fixed_counts cfg env s0 h0 h1 n s h).2, (fixed_counts cfg env s0 h0 h1 n s h).1⟩

/-! ### a concrete family of runs -/

/-- A system on the integers whose predictor always succeeds and whose Newton step is always `d`,
of norm 0 (so accepted at once); the dehomogenized size is the absolute value. -/
def easy (d : ℤ) : Env ℤ where
  predict := fun _ x _ _ => .ok x
  solve := fun _ _ _ => some d
  norm := fun _ => 0
  crit := fun _ _ _ _ _ => true
  digitsB := fun _ => 0
  digitsC := fun _ => 0
  size := fun z => |(z : ℝ)|

/-- Settings for the examples: up to 100 steps, step size at most 1, growth by 2 after one success. -/
noncomputable def cfgE : Cfg where
  initialStep := 1 / 4
  maxStep := 1
  minStep := 1 / 100
  successFactor := 2
  failFactor := 1 / 2
  stepsForIncrease := 1
  minNumSteps := 1
  maxNumSteps := 100
  minNewton := 1
  maxNewton := 2
  tol := 1 / 10
  eps := 1 / 10
  truncate := true
  threshold := 5

/-- State at real time `r` heading for 0 with step `h`. -/
def stE (r h : ℝ) (x : ℤ) (d : ℂ) (k : ℕ) : St ℤ :=
  { time := (r : ℂ), endtime := 0, delta := d, step := h, space := x, nSucc := k, nConsecSucc := k }

theorem relSmall_zero {r e : ℝ} (hr : 0 < r) (he : e < 1) : ¬ relSmall (r : ℂ) 0 e := by
  have hr' : (r : ℂ) ≠ 0 := by exact_mod_cast hr.ne'
  have hn : ‖(r : ℂ)‖ = r := by rw [Complex.norm_real, Real.norm_of_nonneg hr.le]
  rintro (h | ⟨_, h⟩ | ⟨h, _⟩)
  · exact hr' h
  · rw [sub_zero, div_self (by rw [hn]; exact hr.ne')] at h; linarith
  · exact h rfl

theorem nextDelta_stE {r h : ℝ} (h0 : 0 < h) (hr : h ≤ r) (x d k) :
    nextDelta (stE r h x d k) = ((-h : ℝ) : ℂ) := by
  have hr0 : 0 < r := lt_of_lt_of_le h0 hr
  have hn : ‖(0 : ℂ) - (r : ℂ)‖ = r := by
    rw [zero_sub, norm_neg, Complex.norm_real, Real.norm_of_nonneg hr0.le]
  have hr' : (r : ℂ) ≠ 0 := by exact_mod_cast hr0.ne'
  unfold nextDelta stE
  dsimp only
  rw [hn, abs_of_pos h0, if_neg (by linarith)]
  push_cast
  field_simp
  ring

theorem easy_correct (d : ℤ) (i q t) :
    correctAt cfgE (easy d) (fun _ _ _ => true) i q t = (.success, q + d) := by
  have h : uPred 1 = 0 := uPred_of_pos (le_refl _) (by norm_num)
  simp [correctAt, correct, newtonLoop, easy, cfgE, h]

theorem easy_pass {r h : ℝ} (h0 : 1 / 100 ≤ h) (hr : h ≤ r) (x d : ℤ) (dd : ℂ) (k i : ℕ)
    (hk : k < 100) :
    loopStep cfgE (easy d) (fixedTracker cfgE (easy d)) (.running i (stE r h x dd k)) =
      if 5 < |((x + d : ℤ) : ℝ)| then
        .done .goingToInfinity (stE r h (x + d) ((-h : ℝ) : ℂ) k) none
      else .running (i + 1) (stE (r - h) h (x + d) ((-h : ℝ) : ℂ) (k + 1)) := by
  have hh : 0 < h := by linarith
  have hr0 : 0 < r := by linarith
  have e1 : ¬ relSmall (stE r h x dd k).time (stE r h x dd k).endtime cfgE.eps :=
    relSmall_zero hr0 (by norm_num [cfgE])
  have e2 : (fixedTracker cfgE (easy d)).pre (stE r h x dd k) = .success := by
    simp only [fixedTracker, fixedPre, stE, cfgE]
    rw [if_neg (by omega), if_neg (by linarith)]
  have e3 : (fixedTracker cfgE (easy d)).iter i
      { stE r h x dd k with delta := nextDelta (stE r h x dd k) } =
      (.success, stE r h (x + d) ((-h : ℝ) : ℂ) k) := by
    rw [nextDelta_stE hh hr]
    simp only [fixedTracker, fixedIter]
    have : (easy d).predict i (stE r h x dd k).space (stE r h x dd k).time ((-h : ℝ) : ℂ) =
      .ok x := rfl
    rw [this]
    dsimp only
    rw [easy_correct]
    simp [stE]
  simp only [loopStep]
  rw [if_neg e1, if_neg (by rw [e2]; simp), e3]
  dsimp only
  have e4 : (cfgE.truncate = true ∧ cfgE.threshold < (easy d).size (stE r h (x + d) ((-h : ℝ) : ℂ) k).space)
      ↔ 5 < |((x + d : ℤ) : ℝ)| := by simp [cfgE, easy, stE]
  by_cases h5 : 5 < |((x + d : ℤ) : ℝ)|
  · rw [if_pos (e4.2 h5), if_pos h5]
  · rw [if_neg (fun h => h5 (e4.1 h)), if_neg h5, if_pos rfl]
    simp only [baseSuccess, stE, Complex.ofReal_neg, Complex.ofReal_sub]
    congr 2

/-- The path is truncated after one pass: the stored point is the new one (10), the stored time is
still the start time. -/
theorem easy_truncated : fixedRun cfgE (easy 10) (stE 1 (1 / 4) 0 0 0) 1 =
    .done .goingToInfinity (stE 1 (1 / 4) 10 ((-(1 / 4) : ℝ) : ℂ) 0) none := by
  unfold fixedRun
  rw [runAt_succ]
  show loopStep _ _ _ (.running 0 _) = _
  rw [easy_pass (by norm_num) (by norm_num) 0 10 0 0 0 (by norm_num), if_pos]
  · simp
  · norm_num

/-- C37 fails on truncation: `current_space_` has been overwritten by the corrected point while
`current_time_` is only advanced in `OnStepSuccess`, which is skipped; the reported pair is not an
accepted step. -/
theorem C37_refuted : ¬ C37_full := by
  intro H
  have h := (H ℤ cfgE (easy 10) (stE 1 (1 / 4) 0 0 0) 1 _ _ _ easy_truncated).2.2
  rcases h with ⟨_, _, h⟩ | ⟨i, hi, ⟨s, q, h1, _, _, _, _, h6⟩, _⟩
  · simp [stE] at h
  · have : i = 0 := by omega
    subst this
    simp only [runAt, Function.iterate_zero, id_eq, Run.running.injEq, true_and] at h1
    subst h1
    rw [nextDelta_stE (by norm_num) (by norm_num)] at h6
    simp only [stE] at h6
    have h7 : (1 : ℝ) = 1 + -(1 / 4) := by exact_mod_cast h6
    norm_num at h7

/-- What truncation does leave behind: the output is not written, and if the last pass accepted a
step, the stored point is that step's point but the stored time is `delta_t_` short of the step's
time. -/
theorem C37_truncated (cfg : Cfg) (env : Env X) (s0 s1 : St X) {n : ℕ} {s : St X} {o : Option X}
    (h1 : fixedRun cfg env s0 n = .running n s1)
    (h : fixedRun cfg env s0 (n + 1) = .done .goingToInfinity s o) :
    o = none ∧ s.time = s1.time ∧ cfg.threshold < env.size s.space ∧
    ((Accepted cfg env (fixedTracker cfg env) (fun _ _ _ _ _ => true) s0 n (s.time + s.delta) s.space)
      ∨ (s.space = s1.space ∧ ∀ t p,
        ¬ Accepted cfg env (fixedTracker cfg env) (fun _ _ _ _ _ => true) s0 n t p)) := by
  have F := fixed_faithful cfg env
  have h' := h
  unfold fixedRun at h h1
  rw [runAt_succ, h1] at h
  rcases loopStep_cases (cfg := cfg) (env := env) (T := fixedTracker cfg env) n s1 with
    ⟨g1, e⟩ | ⟨g1, g2, e⟩ | ⟨g1, g2, g3, g4, e⟩ | ⟨g1, g2, g3, e⟩ | ⟨g1, g2, g3, e⟩
  · rw [e] at h; cases h
  · rw [e] at h
    simp only [Run.done.injEq] at h
    exact absurd h.1 (F.pre s1)
  · rw [e] at h
    simp only [Run.done.injEq, true_and] at h
    obtain ⟨rfl, rfl⟩ := h
    obtain ⟨t1, t2, t3⟩ := F.times n { s1 with delta := nextDelta s1 }
    refine ⟨rfl, t1, g4, ?_⟩
    by_cases hok : ((fixedTracker cfg env).iter n { s1 with delta := nextDelta s1 }).1 = .success
    · left
      obtain ⟨q, a1, a2⟩ := F.ok n _ hok
      refine ⟨s1, q, h1, g1, g2, a1, ?_, by rw [t1, t3]⟩
      rw [t1, t3]; exact a2
    · right
      refine ⟨F.bad n _ hok, ?_⟩
      rintro t' p' ⟨s', q, r1, r2, r3, r4, r5, r6⟩
      rw [h1] at r1
      cases r1
      subst r6
      exact hok (F.conv n _ q p' r4 r5)
  · rw [e] at h; cases h
  · rw [e] at h; cases h

/-- A full successful run: from time 1 to 0 in four steps of 1/4. -/
theorem easy_run : ∀ j : ℕ, j ≤ 4 → fixedRun cfgE (easy 0) (stE 1 (1 / 4) 3 0 0) j =
    .running j (stE (1 - j / 4) (1 / 4) 3 (if j = 0 then 0 else ((-(1 / 4) : ℝ) : ℂ)) j) := by
  intro j
  induction j with
  | zero => intro _; simp [fixedRun, runAt]
  | succ j ih =>
    intro hj
    have ih := ih (by omega)
    unfold fixedRun at ih ⊢
    have hj' : (j : ℝ) ≤ 3 := by exact_mod_cast (by omega : j ≤ 3)
    rw [runAt_succ, ih, easy_pass (by norm_num) (by linarith) 3 0 _ j j (by omega), if_neg]
    · congr 2
      push_cast
      ring
    · norm_num

/-- Witness for `C37_partial`/`C38_time`/`C39_*`: this call returns `Success` after five passes with
the point 3 at time 0. -/
theorem easy_success : fixedRun cfgE (easy 0) (stE 1 (1 / 4) 3 0 0) 5 =
    .done .success (stE 0 (1 / 4) 3 ((-(1 / 4) : ℝ) : ℂ) 4) (some 3) := by
  have h := easy_run 4 (le_refl _)
  unfold fixedRun at h ⊢
  rw [runAt_succ, h]
  have e : (1 : ℝ) - (4 : ℕ) / 4 = 0 := by norm_num
  rw [e]
  simp [loopStep, relSmall, stE]

example : 0 < cfgE.minStep ∧ 0 < cfgE.failFactor ∧ cfgE.failFactor < 1 ∧
    (stE 1 (1 / 4) 3 0 0).nSucc = 0 ∧ (stE 1 (1 / 4) 3 0 0).nFail = 0 ∧
    0 < (stE 1 (1 / 4) 3 0 0).step ∧ (stE 1 (1 / 4) 3 0 0).step * cfgE.failFactor ^ 5 < cfgE.minStep := by
  norm_num [cfgE, stE]

/-- C40 in full: once more consecutive steps than configured have succeeded (no failure in between,
growth factor above one, step below the maximum and time remaining), the step size has grown. -/
def C40_full : Prop :=
  ∀ (X : Type) [Add X] (cfg : Cfg) (env : Env X) (s0 : St X) (n k : ℕ) (s s' : St X),
    1 < cfg.successFactor → s0.nSucc = 0 → s0.nFail = 0 → cfg.stepsForIncrease < k →
    fixedRun cfg env s0 n = .running n s → fixedRun cfg env s0 (n + k) = .running (n + k) s' →
    s'.nFail = s.nFail → s.step < cfg.maxStep → s.step < s'.step

/-- It does not: `TrackerIteration` only ever multiplies the step by the failure factor, and
`step_size_success_factor`, `max_step_size` and the success counters are never read. -/
theorem C40_refuted : ¬ C40_full := by
  intro H
  have h := H ℤ cfgE (easy 0) (stE 1 (1 / 4) 3 0 0) 1 3 _ _ (by norm_num [cfgE]) rfl rfl
    (by norm_num [cfgE]) (easy_run 1 (by norm_num)) (easy_run 4 (by norm_num)) rfl
    (by norm_num [cfgE, stE])
  simp [stE] at h

end B2.Track
