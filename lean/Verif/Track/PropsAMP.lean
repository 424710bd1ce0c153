/-
Property theorems for the adaptive-precision tracker: C37/C38 instantiated, C41, C42, C73, C74.
-/
import Verif.Track.AMP
import Verif.Track.PropsFixed
import Mathlib.Order.WellFounded
import Mathlib.Data.Prod.Lex

namespace B2.Track

set_option linter.unusedSectionVars false
set_option linter.unusedSimpArgs false

open Classical

variable {X : Type} [Add X]

/-! ### what the adjustments leave alone -/

theorem ampIter_cases (cfg : Cfg) (ac : AmpCfg) (env : Env X) (i : ℕ) (s : St X) :
    (∃ q p, env.predict i s.space s.time s.delta = .ok q ∧
      correctAt cfg env (env.crit i (s.time + s.delta)) i q (s.time + s.delta) = (.success, p) ∧
      ampIter cfg ac env i s = (.success, adjustSuccess cfg ac env i { s with space := p })) ∨
    ((∀ q p, env.predict i s.space s.time s.delta = .ok q →
        correctAt cfg env (env.crit i (s.time + s.delta)) i q (s.time + s.delta) ≠ (.success, p)) ∧
      (ampIter cfg ac env i s).1 ≠ .success ∧
      ((ampIter cfg ac env i s).2 = initialMatrixSolveError s ∨
        (ampIter cfg ac env i s).2 = newtonConvergenceError cfg s ∨
        ((ampIter cfg ac env i s).1 = .higherPrecisionNecessary ∧
          (ampIter cfg ac env i s).2 = ampCriterionError cfg ac env i s))) := by
  unfold ampIter
  cases hp : env.predict i s.space s.time s.delta with
  | ok q =>
    dsimp only
    obtain ⟨r, hr⟩ : ∃ r, r = correctAt cfg env (env.crit i (s.time + s.delta)) i q
      (s.time + s.delta) := ⟨_, rfl⟩
    have hinf := correctAt_codes cfg env (env.crit i (s.time + s.delta)) i q (s.time + s.delta)
    rw [← hr] at hinf ⊢
    by_cases c1 : r.1 = .matrixSolveFailure ∨ r.1 = .failedToConverge
    · right
      rw [if_pos c1]
      have hne : r.1 ≠ .success := by rcases c1 with c | c <;> rw [c] <;> simp
      refine ⟨?_, hne, Or.inr (Or.inl rfl)⟩
      intro q' p e e2
      cases e
      rw [← hr] at e2
      exact hne (by rw [e2])
    · rw [if_neg c1]
      by_cases c2 : r.1 = .higherPrecisionNecessary
      · right
        rw [if_pos c2]
        refine ⟨?_, by rw [c2]; simp, Or.inr (Or.inr ⟨c2, rfl⟩)⟩
        intro q' p e e2
        cases e
        rw [← hr] at e2
        rw [e2] at c2; simp at c2
      · rw [if_neg c2, if_neg hinf]
        left
        have hs : r.1 = .success := by
          have := (correct_codes (X := X) (R := ℝ)
            { solve := env.solve i (s.time + s.delta), norm := env.norm, tol := cfg.tol,
              minIts := cfg.minNewton, maxIts := cfg.maxNewton,
              crit := env.crit i (s.time + s.delta) } q).1
          have hr1 : r.1 = (correct (X := X) (R := ℝ)
            { solve := env.solve i (s.time + s.delta), norm := env.norm, tol := cfg.tol,
              minIts := cfg.minNewton, maxIts := cfg.maxNewton,
              crit := env.crit i (s.time + s.delta) } q).1 := by rw [hr]; rfl
          rw [← hr1] at this
          tauto
        refine ⟨q, r.2, rfl, ?_, rfl⟩
        rw [← hr]; exact Prod.ext hs rfl
  | firstFail =>
    right; exact ⟨fun q p e => by (cases e), by simp [Predicted.code], Or.inl rfl⟩
  | solveFail =>
    right; exact ⟨fun q p e => by (cases e), by simp [Predicted.code], Or.inr (Or.inl rfl)⟩
  | higherPrec =>
    right; exact ⟨fun q p e => by (cases e), by simp [Predicted.code], Or.inr (Or.inr ⟨rfl, rfl⟩)⟩

theorem adjustSuccess_same (cfg : Cfg) (ac : AmpCfg) (env : Env X) (i : ℕ) (s : St X) :
    (adjustSuccess cfg ac env i s).time = s.time ∧
    (adjustSuccess cfg ac env i s).endtime = s.endtime ∧
    (adjustSuccess cfg ac env i s).delta = s.delta ∧
    (adjustSuccess cfg ac env i s).space = s.space ∧
    (adjustSuccess cfg ac env i s).nSucc = s.nSucc := ⟨rfl, rfl, rfl, rfl, rfl⟩

theorem criterion_same (cfg : Cfg) (ac : AmpCfg) (env : Env X) (i : ℕ) (s : St X) :
    (ampCriterionError cfg ac env i s).time = s.time ∧
    (ampCriterionError cfg ac env i s).endtime = s.endtime ∧
    (ampCriterionError cfg ac env i s).delta = s.delta ∧
    (ampCriterionError cfg ac env i s).space = s.space ∧
    (ampCriterionError cfg ac env i s).nSucc = s.nSucc := by
  unfold ampCriterionError
  dsimp only
  split_ifs <;> exact ⟨rfl, rfl, rfl, rfl, rfl⟩

theorem amp_faithful (cfg : Cfg) (ac : AmpCfg) (env : Env X) :
    Faithful cfg env (ampTracker cfg ac env) env.crit where
  ok := by
    intro i s h
    rcases ampIter_cases cfg ac env i s with ⟨q, p, h1, h2, h3⟩ | ⟨_, h2, _⟩
    · refine ⟨q, h1, ?_⟩
      simp only [ampTracker, h3]
      exact h2
    · exact absurd h h2
  conv := by
    intro i s q p h1 h2
    rcases ampIter_cases cfg ac env i s with ⟨q', p', h1', h2', h3'⟩ | ⟨h, _, _⟩
    · simp only [ampTracker, h3']
    · exact absurd h2 (h q p h1)
  bad := by
    intro i s h
    rcases ampIter_cases cfg ac env i s with ⟨q', p', h1', h2', h3'⟩ | ⟨_, _, h3 | h3 | ⟨_, h3⟩⟩
    · simp only [ampTracker, h3'] at h; exact absurd rfl h
    · simp only [ampTracker, h3]; rfl
    · simp only [ampTracker, h3]; rfl
    · simp only [ampTracker, h3]; exact (criterion_same cfg ac env i s).2.2.2.1
  times := by
    intro i s
    rcases ampIter_cases cfg ac env i s with ⟨q', p', h1', h2', h3'⟩ | ⟨_, _, h3 | h3 | ⟨_, h3⟩⟩
    · simp only [ampTracker, h3']; exact ⟨rfl, rfl, rfl⟩
    · simp only [ampTracker, h3]; exact ⟨rfl, rfl, rfl⟩
    · simp only [ampTracker, h3]; exact ⟨rfl, rfl, rfl⟩
    · simp only [ampTracker, h3]
      obtain ⟨a, b, c, _⟩ := criterion_same cfg ac env i s
      exact ⟨a, b, c⟩
  onFail := by intro s; simp [ampTracker]
  pre := by
    intro s
    simp only [ampTracker, ampPre]
    split_ifs <;> simp

/-- A call of `TrackPath` on the adaptive tracker after `n` passes. -/
noncomputable def ampRun (cfg : Cfg) (ac : AmpCfg) (env : Env X) (s0 : St X) (n : ℕ) : Run X :=
  runAt cfg env (ampTracker cfg ac env) s0 n

/-- C37 for the adaptive tracker (same exception as for fixed precision). `s0` is the state left by
the initial refinement. -/
theorem C37_amp_partial (cfg : Cfg) (ac : AmpCfg) (env : Env X) (s0 : St X) {n : ℕ} {c : Code}
    {s : St X} {o : Option X} (h : ampRun cfg ac env s0 n = .done c s o)
    (hc : c ≠ .goingToInfinity) :
    (c = .success → Close s.time s0.endtime cfg.eps ∧ o = some s.space) ∧
    (c ≠ .success → o = none) ∧
    LastAccepted cfg env (ampTracker cfg ac env) env.crit s0 n s.time s.space :=
  returned_generic (amp_faithful cfg ac env) h hc

/-- C38 for the adaptive tracker. -/
theorem C38_amp_time (cfg : Cfg) (ac : AmpCfg) (env : Env X) (s0 : St X) (hmin : 0 < cfg.minStep)
    (n : ℕ) :
    (ampRun cfg ac env s0 n).st.time ∈ segment ℝ s0.time s0.endtime ∧
    (ampRun cfg ac env s0 n).st.endtime = s0.endtime ∧
    ((((ampRun cfg ac env s0 (n + 1)).st.time = (ampRun cfg ac env s0 n).st.time) ∧
        ((∀ t p, ¬ Accepted cfg env (ampTracker cfg ac env) env.crit s0 n t p) ∨
          ∃ s, ampRun cfg ac env s0 (n + 1) = .done .goingToInfinity s none)) ∨
      ((∃ p, Accepted cfg env (ampTracker cfg ac env) env.crit s0 n
          (ampRun cfg ac env s0 (n + 1)).st.time p) ∧
        (ampRun cfg ac env s0 (n + 1)).st.time ∈
          segment ℝ (ampRun cfg ac env s0 n).st.time s0.endtime ∧
        ‖s0.endtime - (ampRun cfg ac env s0 (n + 1)).st.time‖ <
          ‖s0.endtime - (ampRun cfg ac env s0 n).st.time‖)) := by
  refine time_generic (amp_faithful cfg ac env) ?_ n
  intro s hs
  simp only [ampTracker, ampPre] at hs
  split_ifs at hs with h1 h2
  linarith

/-! ### the cost minimiser -/

theorem candidates_ge {a b p : ℕ} (h : p ∈ candidates a b) : a / 10 * 10 ≤ p ∨ (a ≤ 16 ∧ p = 16) := by
  unfold candidates at h
  simp only [List.mem_append, List.mem_map, List.mem_range] at h
  rcases h with h | ⟨k, _, rfl⟩
  · split_ifs at h with h1
    · right; simp at h; exact ⟨h1, h⟩
    · simp at h
  · left; split_ifs <;> omega

theorem candidates_gt16 {a b p : ℕ} (h : p ∈ candidates a b) (ha : 16 < a) : 20 ≤ p := by
  unfold candidates at h
  simp only [List.mem_append, List.mem_map, List.mem_range] at h
  rcases h with h | ⟨k, _, rfl⟩
  · rw [if_neg (by omega)] at h; simp at h
  · split_ifs <;> omega

/-- The minimiser returns a tried precision with its candidate step size, or the impossible value. -/
theorem minimize_cases (a b : ℕ) (mn mx : ℝ) (dB n o : ℕ) :
    minimizeCost a mn b mx dB n o = (mn, 1001) ∨
    ∃ p ∈ candidates a b, minimizeCost a mn b mx dB n o = (min (stepsizeB p dB n o) mx, p) := by
  unfold minimizeCost
  have : ∀ (l : List ℕ) (st : ℝ × ℝ × ℕ),
      (l.foldl (minimizer mx dB n o) st).2 = st.2 ∨
      ∃ p ∈ l, (l.foldl (minimizer mx dB n o) st).2 = (min (stepsizeB p dB n o) mx, p) := by
    intro l
    induction l with
    | nil => intro st; left; rfl
    | cons p l ih =>
      intro st
      simp only [List.foldl_cons]
      rcases ih (minimizer mx dB n o st p) with h | ⟨q, hq, h⟩
      · rw [h]
        unfold minimizer
        dsimp only
        split_ifs
        · right; exact ⟨p, List.mem_cons_self, rfl⟩
        · left; rfl
      · right; exact ⟨q, List.mem_cons_of_mem _ hq, h⟩
  exact this _ _

/-- The step size the minimiser returns never exceeds the permitted maximum, if the minimum does
not. -/
theorem minimize_step_le (a b : ℕ) {mn mx : ℝ} (dB n o : ℕ) (h : mn ≤ mx) :
    (minimizeCost a mn b mx dB n o).1 ≤ mx := by
  rcases minimize_cases a b mn mx dB n o with e | ⟨p, _, e⟩
  · rw [e]; exact h
  · rw [e]; exact min_le_right _ _

/-! ### C42: after a precision-criterion failure -/

/-- The digits a step must have according to the criteria evaluated in this iteration. -/
def required (ac : AmpCfg) (env : Env X) (i : ℕ) : ℕ :=
  max (max (env.digitsB i) (env.digitsC i)) ac.digitsFinal

/-- C42 in full: after a step that failed the precision criteria, the next attempt has strictly higher
precision or a strictly smaller step, and if an attempt is made at all (precision within the maximum)
the precision is at least the required one. -/
def C42_full : Prop :=
  ∀ (X : Type) [Add X] (cfg : Cfg) (ac : AmpCfg) (env : Env X) (i : ℕ) (s : St X),
    0 < cfg.failFactor → cfg.failFactor < 1 → ac.maxPrec ≤ 1000 → ampPre cfg ac s = .success →
    0 < s.step → 16 ≤ s.prec →
    let s' := ampCriterionError cfg ac env i s
    (s.prec < s'.prec ∨ s'.step < s.step) ∧
    (s'.prec ≤ ac.maxPrec → required ac env i ≤ s'.prec)

/-- C42, the part that holds: after a criterion failure the precision strictly increases (always, not
just "or a smaller step"); and unless the step size was too small for the current precision, the step
shrinks at least by the failure factor and the precision is at least the required one rounded down to a
multiple of ten. -/
theorem C42_partial (cfg : Cfg) (ac : AmpCfg) (env : Env X) (i : ℕ) (s : St X)
    (hmax : ac.maxPrec ≤ 1000) (hpre : ampPre cfg ac s = .success) (h16 : 16 ≤ s.prec) :
    s.prec < (ampCriterionError cfg ac env i s).prec ∧
    (minStepFor s.prec ‖s.time - s.endtime‖ ≤ s.step * cfg.failFactor →
      (ampCriterionError cfg ac env i s).step ≤ s.step * cfg.failFactor ∧
      ((ampCriterionError cfg ac env i s).prec ≤ ac.maxPrec →
        required ac env i / 10 * 10 ≤ (ampCriterionError cfg ac env i s).prec)) := by
  have hp : s.prec ≤ ac.maxPrec := by
    unfold ampPre at hpre
    split_ifs at hpre with h1 h2 h3
    omega
  unfold ampCriterionError
  dsimp only
  obtain ⟨mnext, hm⟩ : ∃ m, m = if s.prec = 16 then 20 else s.prec + (1 + s.nConsecFail) * 10 :=
    ⟨_, rfl⟩
  rw [← hm]
  have hm1 : s.prec < mnext ∧ 20 ≤ mnext ∧ s.prec < mnext / 10 * 10 := by
    rw [hm]
    by_cases e : s.prec = 16
    · rw [if_pos e]; omega
    · rw [if_neg e]
      have : 10 ≤ (1 + s.nConsecFail) * 10 := by omega
      refine ⟨by omega, by omega, ?_⟩
      omega
  by_cases c : s.step * cfg.failFactor < minStepFor s.prec ‖s.time - s.endtime‖
  · rw [if_pos c]
    exact ⟨hm1.1, fun h => absurd c (not_lt.2 h)⟩
  · rw [if_neg c]
    dsimp only
    obtain ⟨minP, hmp⟩ : ∃ m, m = max (max mnext (env.digitsB i)) (max (env.digitsC i)
      (max (minDigitsForInterval (minStepFor s.prec ‖s.time - s.endtime‖)
        (s.step * cfg.failFactor) ‖s.time - s.endtime‖) ac.digitsFinal)) := ⟨_, rfl⟩
    rw [← hmp]
    have g1 : mnext ≤ minP := by rw [hmp]; exact le_trans (le_max_left _ _) (le_max_left _ _)
    have g2 : required ac env i ≤ minP := by
      rw [hmp]
      refine max_le (max_le ?_ ?_) ?_
      · exact le_trans (le_max_right _ _) (le_max_left _ _)
      · exact le_trans (le_max_left _ _) (le_max_right _ _)
      · exact le_trans (le_trans (le_max_right _ _) (le_max_right _ _)) (le_max_right _ _)
    have g3 := minimize_step_le minP ac.maxPrec (mn := minStepFor s.prec ‖s.time - s.endtime‖)
      (mx := s.step * cfg.failFactor) (env.digitsB i) cfg.maxNewton ac.order (not_lt.1 c)
    rcases minimize_cases minP ac.maxPrec (minStepFor s.prec ‖s.time - s.endtime‖)
      (s.step * cfg.failFactor) (env.digitsB i) cfg.maxNewton ac.order with e | ⟨p, hpm, e⟩
    · rw [e] at g3 ⊢
      exact ⟨by dsimp only; omega, fun _ => ⟨g3, fun h => absurd h (by dsimp only; omega)⟩⟩
    · rw [e] at g3 ⊢
      have := candidates_ge hpm
      have h1 : minP / 10 * 10 ≤ p := by
        rcases this with h | ⟨h, _⟩
        · exact h
        · omega
      dsimp only
      have h2 : mnext / 10 * 10 ≤ minP / 10 * 10 :=
        Nat.mul_le_mul_right _ (Nat.div_le_div_right g1)
      have h3 : required ac env i / 10 * 10 ≤ minP / 10 * 10 :=
        Nat.mul_le_mul_right _ (Nat.div_le_div_right g2)
      exact ⟨by omega, fun _ => ⟨g3, fun _ => by omega⟩⟩

/-! ### C41: termination -/

theorem bump_gt (p : ℕ) : p < bump p := by unfold bump; split <;> omega

theorem le_bump_iter (p k : ℕ) : p + k ≤ bump^[k] p := by
  induction k with
  | zero => exact le_refl _
  | succ k ih =>
    rw [Function.iterate_succ_apply']
    have := bump_gt (bump^[k] p)
    omega

/-- The precision search of `NewtonConvergenceError` ends for every positive step size. -/
theorem bump_suffices {st : ℝ} (hst : 0 < st) (p : ℕ) (d : ℝ) (hd : 0 ≤ d) :
    ∃ k, ¬ st < minStepFor (bump^[k] p) d := by
  obtain ⟨N, hN⟩ := exists_pow_lt_of_lt_one (show (0 : ℝ) < st / (1000 * d + 1) by positivity)
    (show (1 / 10 : ℝ) < 1 by norm_num)
  refine ⟨N + 17, ?_⟩
  have hk := le_bump_iter p (N + 17)
  obtain ⟨P, hP⟩ : ∃ P, P = bump^[N + 17] p := ⟨_, rfl⟩
  rw [← hP] at hk ⊢
  have hPN : N ≤ P := by omega
  unfold minStepFor
  dsimp only
  rw [if_neg (by omega)]
  rw [not_lt]
  have e1 : (10 : ℝ) ^ (3 - (P : ℤ)) = 1000 * (1 / 10 : ℝ) ^ P := by
    rw [zpow_sub₀ (by norm_num), zpow_natCast]
    norm_num
    rw [div_eq_mul_inv, one_div, inv_pow]
  rw [e1]
  have e2 : (1 / 10 : ℝ) ^ P ≤ (1 / 10 : ℝ) ^ N :=
    pow_le_pow_of_le_one (by norm_num) (by norm_num) hPN
  have e3 : (1 / 10 : ℝ) ^ N * (1000 * d + 1) < st := by
    rwa [lt_div_iff₀ (by positivity)] at hN
  have e4 : 0 ≤ (1 / 10 : ℝ) ^ N := by positivity
  calc 1000 * (1 / 10 : ℝ) ^ P * d = (1 / 10 : ℝ) ^ P * (1000 * d) := by ring
    _ ≤ (1 / 10 : ℝ) ^ N * (1000 * d) := by
        apply mul_le_mul_of_nonneg_right e2; positivity
    _ ≤ (1 / 10 : ℝ) ^ N * (1000 * d + 1) := by nlinarith
    _ ≤ st := e3.le

theorem newtonConv_facts (cfg : Cfg) (s : St X) :
    (newtonConvergenceError cfg s).step = cfg.failFactor * s.step ∧
    s.prec ≤ (newtonConvergenceError cfg s).prec ∧
    (newtonConvergenceError cfg s).nSucc = s.nSucc := by
  refine ⟨rfl, ?_, rfl⟩
  unfold newtonConvergenceError
  dsimp only
  split_ifs with h
  · have := le_bump_iter s.prec (Nat.find h); omega
  · exact le_refl _

/-- How many multiplications by the failure factor bring a step below the minimum. -/
noncomputable def shrinks (cfg : Cfg) (st : ℝ) : ℕ :=
  if h : ∃ F : ℕ, st * cfg.failFactor ^ F < cfg.minStep then Nat.find h else 0

theorem shrinks_lt (cfg : Cfg) (hf0 : 0 < cfg.failFactor) (hf1 : cfg.failFactor < 1)
    (hmin : 0 < cfg.minStep) {st : ℝ} (h : cfg.minStep ≤ st) :
    shrinks cfg (cfg.failFactor * st) < shrinks cfg st := by
  have hst : 0 < st := lt_of_lt_of_le hmin h
  have hex : ∀ u : ℝ, 0 < u → ∃ F : ℕ, u * cfg.failFactor ^ F < cfg.minStep := by
    intro u hu
    obtain ⟨F, hF⟩ := exists_pow_lt_of_lt_one (div_pos hmin hu) hf1
    rw [lt_div_iff₀ hu, mul_comm] at hF
    exact ⟨F, hF⟩
  unfold shrinks
  rw [dif_pos (hex st hst), dif_pos (hex _ (mul_pos hf0 hst))]
  have hpos : Nat.find (hex st hst) ≠ 0 := by
    intro e
    have := Nat.find_spec (hex st hst)
    rw [e, pow_zero, mul_one] at this
    linarith
  have hspec := Nat.find_spec (hex st hst)
  obtain ⟨m, hm⟩ : ∃ m, Nat.find (hex st hst) = m + 1 := ⟨Nat.find (hex st hst) - 1, by omega⟩
  rw [hm] at hspec ⊢
  refine lt_of_le_of_lt (Nat.find_min' _ (m := m) ?_) (Nat.lt_succ_self m)
  rw [pow_succ] at hspec
  nlinarith

/-- Ranking of a state: remaining successes, remaining precision, remaining shrinks. -/
noncomputable def rank (cfg : Cfg) (ac : AmpCfg) (s : St X) : ℕ ×ₗ ℕ ×ₗ ℕ :=
  toLex (cfg.maxNumSteps - s.nSucc, toLex (ac.maxPrec + 1 - s.prec, shrinks cfg s.step))

theorem rank_lt (cfg : Cfg) (ac : AmpCfg) (a b : St X)
    (h : cfg.maxNumSteps - a.nSucc < cfg.maxNumSteps - b.nSucc ∨
      (a.nSucc = b.nSucc ∧ (ac.maxPrec + 1 - a.prec < ac.maxPrec + 1 - b.prec ∨
        (a.prec = b.prec ∧ shrinks cfg a.step < shrinks cfg b.step)))) :
    rank cfg ac a < rank cfg ac b := by
  unfold rank
  rw [Prod.Lex.toLex_lt_toLex]
  rcases h with h | ⟨h1, h | ⟨h2, h⟩⟩
  · exact Or.inl h
  · refine Or.inr ⟨by dsimp only; rw [h1], ?_⟩
    dsimp only
    rw [Prod.Lex.toLex_lt_toLex]
    exact Or.inl h
  · refine Or.inr ⟨by dsimp only; rw [h1], ?_⟩
    dsimp only
    rw [Prod.Lex.toLex_lt_toLex]
    exact Or.inr ⟨by dsimp only; rw [h2], h⟩

theorem initialMatrix_prec (s : St X) (_h : 16 ≤ s.prec) :
    s.prec < (initialMatrixSolveError s).prec := by
  unfold initialMatrixSolveError
  dsimp only
  split_ifs <;> omega

theorem candidates_ge16 {a b p : ℕ} (h : p ∈ candidates a b) : 16 ≤ p := by
  unfold candidates at h
  simp only [List.mem_append, List.mem_map, List.mem_range] at h
  rcases h with h | ⟨k, _, rfl⟩
  · split_ifs at h with h1
    · simp at h; omega
    · simp at h
  · split_ifs <;> omega

/-- Precision never drops below double precision. -/
theorem amp_prec16 (cfg : Cfg) (ac : AmpCfg) (env : Env X) (i : ℕ) (s : St X) (h : 16 ≤ s.prec)
    (hmax : ac.maxPrec ≤ 1000) (hpre : ampPre cfg ac s = .success) :
    16 ≤ ((ampTracker cfg ac env).iter i { s with delta := nextDelta s }).2.prec := by
  simp only [ampTracker]
  rcases ampIter_cases cfg ac env i { s with delta := nextDelta s } with
    ⟨q', p', h1', h2', h3'⟩ | ⟨_, _, h3 | h3 | ⟨_, h3⟩⟩
  · rw [h3']
    simp only [adjustSuccess]
    rcases minimize_cases _ _ _ _ _ _ _ with e | ⟨p, hp, e⟩
    · rw [e]; norm_num
    · rw [e]; exact candidates_ge16 hp
  · rw [h3]
    have := initialMatrix_prec { s with delta := nextDelta s } h
    dsimp only at this
    omega
  · rw [h3]
    have := (newtonConv_facts cfg { s with delta := nextDelta s }).2.1
    dsimp only at this
    omega
  · rw [h3]
    have := (C42_partial cfg ac env i { s with delta := nextDelta s } hmax hpre h).1
    dsimp only at this
    omega

/-- Every pass that leaves the loop running decreases the ranking, once the next state passes the
pre-iteration check. -/
theorem amp_pass_rank (cfg : Cfg) (ac : AmpCfg) (env : Env X)
    (hf0 : 0 < cfg.failFactor) (hf1 : cfg.failFactor < 1) (hmin : 0 < cfg.minStep)
    (hmax : ac.maxPrec ≤ 1000) {i j : ℕ} {s s' : St X} (h16 : 16 ≤ s.prec)
    (h : loopStep cfg env (ampTracker cfg ac env) (.running i s) = .running j s') :
    rank cfg ac s' < rank cfg ac s ∧ 16 ≤ s'.prec ∧ s.prec ≤ ac.maxPrec ∧ cfg.minStep ≤ s.step ∧
      s.nSucc < cfg.maxNumSteps := by
  rcases loopStep_cases (cfg := cfg) (env := env) (T := ampTracker cfg ac env) i s with
    ⟨g1, e⟩ | ⟨g1, g2, e⟩ | ⟨g1, g2, _, _, e⟩ | ⟨g1, g2, g3, e⟩ | ⟨g1, g2, g3, e⟩
  · rw [e] at h; cases h
  · rw [e] at h; cases h
  · rw [e] at h; cases h
  · rw [e] at h
    simp only [Run.running.injEq] at h
    have hg2 := g2
    simp only [ampTracker, ampPre] at g2
    split_ifs at g2 with p1 p2 p3
    have h16' := amp_prec16 cfg ac env i s h16 hmax hg2
    refine ⟨?_, by rw [← h.2]; exact h16', by omega, not_lt.1 p2, by omega⟩
    apply rank_lt
    left
    rcases ampIter_cases cfg ac env i { s with delta := nextDelta s } with
      ⟨q', p', h1', h2', h3'⟩ | ⟨_, h3, _⟩
    · rw [← h.2]
      simp only [ampTracker, h3', baseSuccess, adjustSuccess]
      omega
    · exact absurd g3 h3
  · rw [e] at h
    simp only [Run.running.injEq] at h
    have hg2 := g2
    simp only [ampTracker, ampPre] at g2
    split_ifs at g2 with p1 p2 p3
    have h16' := amp_prec16 cfg ac env i s h16 hmax hg2
    refine ⟨?_, by rw [← h.2]; exact h16', by omega, not_lt.1 p2, by omega⟩
    rw [← h.2]
    rcases ampIter_cases cfg ac env i { s with delta := nextDelta s } with
      ⟨q', p', h1', h2', h3'⟩ | ⟨_, _, h3 | h3 | ⟨_, h3⟩⟩
    · simp only [ampTracker, h3'] at g3; exact absurd rfl g3
    · apply rank_lt
      right
      simp only [ampTracker, h3, baseFail]
      refine ⟨rfl, Or.inl ?_⟩
      have := initialMatrix_prec { s with delta := nextDelta s } h16
      dsimp only at this
      omega
    · apply rank_lt
      right
      simp only [ampTracker, h3, baseFail]
      obtain ⟨f1, f2, f3⟩ := newtonConv_facts cfg { s with delta := nextDelta s }
      refine ⟨f3, ?_⟩
      rw [f1]
      dsimp only at f2 ⊢
      rcases Nat.lt_or_ge s.prec (newtonConvergenceError cfg { s with delta := nextDelta s }).prec
        with hlt | hge
      · left; omega
      · right
        exact ⟨by omega, shrinks_lt cfg hf0 hf1 hmin (not_lt.1 p2)⟩
    · apply rank_lt
      right
      simp only [ampTracker, h3, baseFail]
      have := (C42_partial cfg ac env i { s with delta := nextDelta s } hmax hg2 h16).1
      dsimp only at this
      exact ⟨(criterion_same cfg ac env i _).2.2.2.2, Or.inl (by omega)⟩

/-- C41, termination: for every behaviour of predictor, corrector and criteria, the adaptive tracker's
`TrackPath` returns.  (Configuration: positive minimum step, failure factor in (0,1), maximum precision
within `MaxPrecisionAllowed()`, start precision at least double.) -/
theorem C41_terminates (cfg : Cfg) (ac : AmpCfg) (env : Env X)
    (hf0 : 0 < cfg.failFactor) (hf1 : cfg.failFactor < 1) (hmin : 0 < cfg.minStep)
    (hmax : ac.maxPrec ≤ 1000) (s0 : St X) (h16 : 16 ≤ s0.prec) :
    ∃ n c s o, ampRun cfg ac env s0 n = .done c s o := by
  have : ∀ (r : ℕ ×ₗ ℕ ×ₗ ℕ) (i : ℕ) (s : St X), rank cfg ac s = r → 16 ≤ s.prec →
      ∃ n c s' o, (loopStep cfg env (ampTracker cfg ac env))^[n] (.running i s) = .done c s' o := by
    intro r
    induction r using WellFoundedLT.induction with
    | ind r ih =>
      intro i s hr h16
      cases hs : loopStep cfg env (ampTracker cfg ac env) (.running i s) with
      | done c s' o => exact ⟨1, c, s', o, hs⟩
      | running j s' =>
        obtain ⟨hlt, h16', _⟩ := amp_pass_rank cfg ac env hf0 hf1 hmin hmax h16 hs
        rw [hr] at hlt
        obtain ⟨n, c, s'', o, h⟩ := ih _ hlt j s' rfl h16'
        refine ⟨n + 1, c, s'', o, ?_⟩
        rw [Function.iterate_succ_apply, hs]
        exact h
  exact this _ 0 s0 rfl h16

/-- C41, precision cap: whenever the loop goes through a pass (a step is attempted), the precision in
use is within the configured maximum, the step is at least the minimum and fewer than the maximal number
of steps have been taken. -/
theorem C41_cap (cfg : Cfg) (ac : AmpCfg) (env : Env X)
    (s0 : St X) {n : ℕ} {s s' : St X}
    (h : ampRun cfg ac env s0 n = .running n s)
    (h' : ampRun cfg ac env s0 (n + 1) = .running (n + 1) s') :
    s.prec ≤ ac.maxPrec ∧ cfg.minStep ≤ s.step ∧ s.nSucc < cfg.maxNumSteps := by
  unfold ampRun at h h'
  rw [runAt_succ, h] at h'
  rcases loopStep_cases (cfg := cfg) (env := env) (T := ampTracker cfg ac env) n s with
    ⟨g1, e⟩ | ⟨g1, g2, e⟩ | ⟨g1, g2, _, _, e⟩ | ⟨g1, g2, g3, e⟩ | ⟨g1, g2, g3, e⟩
  · rw [e] at h'; cases h'
  · rw [e] at h'; cases h'
  all_goals
    simp only [ampTracker, ampPre] at g2
    split_ifs at g2 with p1 p2 p3
    exact ⟨by omega, not_lt.1 p2, by omega⟩

/-- The initial refinement ends (it is a total function) with one of two codes, and reports
`SingularStartPoint` only after every precision it may use has failed. -/
theorem C41_initial (maxPrec : ℕ) (refine : ℕ → X → Option X) (p : ℕ) (x : X) :
    (∃ k y, initialRefinement maxPrec refine p x = (.success, bump^[k] p, y) ∧
      refine (bump^[k] p) x = some y ∧ ∀ j, j < k → refine (bump^[j] p) x = none) ∨
    (∃ k, initialRefinement maxPrec refine p x = (.singularStartPoint, bump^[k] p, x) ∧
      maxPrec < bump^[k] p ∧ ∀ j, j ≤ k → refine (bump^[j] p) x = none) := by
  have loop : ∀ (p : ℕ), refine p x = none →
      (∃ k y, refineLoop maxPrec refine p x = (.success, bump^[k] p, y) ∧
        refine (bump^[k] p) x = some y ∧ ∀ j, j < k → refine (bump^[j] p) x = none) ∨
      (∃ k, refineLoop maxPrec refine p x = (.singularStartPoint, bump^[k] p, x) ∧
        maxPrec < bump^[k] p ∧ ∀ j, j ≤ k → refine (bump^[j] p) x = none) := by
    intro p
    induction hm : maxPrec + 1 - p using Nat.strong_induction_on generalizing p with
    | _ m ih =>
      intro hp
      rw [refineLoop]
      by_cases c : maxPrec < p
      · rw [if_pos c]
        right
        exact ⟨0, rfl, c, fun j hj => by rw [Nat.le_zero.1 hj]; exact hp⟩
      · rw [if_neg c]
        cases hb : refine (bump p) x with
        | some y =>
          left
          refine ⟨1, y, rfl, hb, fun j hj => ?_⟩
          have : j = 0 := by omega
          subst this; exact hp
        | none =>
          dsimp only
          have hlt : maxPrec + 1 - bump p < m := by
            have := bump_gt p; omega
          have shift : ∀ j, j ≠ 0 → bump^[j] p = bump^[j - 1] (bump p) := by
            intro j hj
            rw [← Function.iterate_succ_apply bump (j - 1) p]
            congr 1
            omega
          rcases ih _ hlt (bump p) rfl hb with ⟨k, y, a1, a2, a3⟩ | ⟨k, a1, a2, a3⟩
          · left
            refine ⟨k + 1, y, by rw [a1, shift (k + 1) (by omega)]; rfl,
              by rw [shift (k + 1) (by omega)]; exact a2, fun j hj => ?_⟩
            by_cases j0 : j = 0
            · subst j0; exact hp
            · rw [shift j j0]; exact a3 _ (by omega)
          · right
            refine ⟨k + 1, by rw [a1, shift (k + 1) (by omega)]; rfl,
              by rw [shift (k + 1) (by omega)]; exact a2, fun j hj => ?_⟩
            by_cases j0 : j = 0
            · subst j0; exact hp
            · rw [shift j j0]; exact a3 _ (by omega)
  unfold initialRefinement
  cases h0 : refine p x with
  | some y => left; exact ⟨0, y, rfl, h0, fun j hj => by omega⟩
  | none => exact loop p h0

/-! ### refutations -/

/-- A double-precision state at time 1 heading for 0, with step `h`. -/
def stA (p : ℕ) (h : ℝ) : St ℤ :=
  { time := 1, endtime := 0, delta := 0, step := h, space := 0, prec := p }

/-- Settings: maximum precision 300 as by default. -/
def acA : AmpCfg :=
  { maxPrec := 300, stepsForPrecDecrease := 10, maxPrecDecreases := 10, order := 4, digitsTol := 5
    digitsFinal := 11 }

/-- Default minimum step size (10^-100), default factors. -/
noncomputable def cfgA : Cfg := { cfgE with minStep := (10 : ℝ) ^ (-100 : ℤ) }

/-- A system demanding 45 digits. -/
def env45 : Env ℤ := { easy 0 with digitsB := fun _ => 45 }

theorem stA_pre {h : ℝ} (hh : (10 : ℝ) ^ (-100 : ℤ) ≤ h) : ampPre cfgA acA (stA 16 h) = .success := by
  unfold ampPre
  rw [if_neg (show ¬ cfgA.maxNumSteps ≤ (stA 16 h).nSucc from by simp [cfgA, cfgE, stA]),
    if_neg (show ¬ (stA 16 h).step < cfgA.minStep from not_lt.2 hh),
    if_neg (show ¬ acA.maxPrec < (stA 16 h).prec from by simp [acA, stA])]

theorem minStepFor_16 : minStepFor 16 ‖(1 : ℂ) - 0‖ = (10 : ℝ) ^ (-13 : ℤ) := by
  unfold minStepFor
  dsimp only
  rw [sub_zero, norm_one, mul_one, if_neg]
  · norm_num
  · rintro ⟨_, h⟩
    norm_num at h

/-- The criterion-failure adjustment in double precision with step 10^-13: precision 20, although 45
digits are required. -/
theorem crit_example : ampCriterionError cfgA acA env45 0 (stA 16 ((10 : ℝ) ^ (-13 : ℤ))) =
    stA 20 ((10 : ℝ) ^ (-13 : ℤ)) := by
  unfold ampCriterionError
  dsimp only
  have e : minStepFor (stA 16 ((10 : ℝ) ^ (-13 : ℤ))).prec
      ‖(stA 16 ((10 : ℝ) ^ (-13 : ℤ))).time - (stA 16 ((10 : ℝ) ^ (-13 : ℤ))).endtime‖ =
      (10 : ℝ) ^ (-13 : ℤ) := minStepFor_16
  rw [e, if_pos]
  · simp only [stA, cfgA, cfgE, if_true]
    congr 1
    rw [max_eq_right]
    norm_num
  · simp only [stA, cfgA, cfgE]; norm_num

/-- C42 fails: when the step is too small for the current precision, the precision is raised by one
increment only, whatever the criteria demand, and the next step is attempted with fewer digits than
required. -/
theorem C42_refuted : ¬ C42_full := by
  intro H
  have h := (H ℤ cfgA acA env45 0 (stA 16 ((10 : ℝ) ^ (-13 : ℤ))) (by norm_num [cfgA, cfgE])
    (by norm_num [cfgA, cfgE]) (by simp [acA])
    (stA_pre (by norm_num))
    (by simp only [stA]; positivity) (by simp [stA])).2
  rw [crit_example] at h
  have := h (by simp [stA, acA])
  simp [required, env45, acA, stA] at this

/-- Witness for `C42_partial`: the same state meets its hypotheses. -/
example : ampPre cfgA acA (stA 16 ((10 : ℝ) ^ (-13 : ℤ))) = .success ∧ acA.maxPrec ≤ 1000 ∧
    16 ≤ (stA 16 ((10 : ℝ) ^ (-13 : ℤ))).prec := by
  exact ⟨stA_pre (by norm_num), by simp [acA], by simp [stA]⟩

/-- C73 in full: a criterion failure always decreases the step size, as documented for
`AMPCriterionError` (amp_tracker.hpp 838 "Stepsize is REQUIRED to decrease"). -/
def C73_full : Prop :=
  ∀ (X : Type) [Add X] (cfg : Cfg) (ac : AmpCfg) (env : Env X) (i : ℕ) (s : St X),
    0 < cfg.failFactor → cfg.failFactor < 1 → ac.maxPrec ≤ 1000 → ampPre cfg ac s = .success →
    0 < s.step → 16 ≤ s.prec → (ampCriterionError cfg ac env i s).step < s.step

/-- It need not: with a step below the smallest one representable at the current precision, the step
size is raised to that bound (here from 10^-14 to 10^-13). -/
theorem C73_refuted : ¬ C73_full := by
  intro H
  have h := H ℤ cfgA acA env45 0 (stA 16 ((10 : ℝ) ^ (-14 : ℤ))) (by norm_num [cfgA, cfgE])
    (by norm_num [cfgA, cfgE]) (by simp [acA])
    (stA_pre (by norm_num))
    (by simp only [stA]; positivity) (by simp [stA])
  unfold ampCriterionError at h
  dsimp only at h
  have e : minStepFor (stA 16 ((10 : ℝ) ^ (-14 : ℤ))).prec
      ‖(stA 16 ((10 : ℝ) ^ (-14 : ℤ))).time - (stA 16 ((10 : ℝ) ^ (-14 : ℤ))).endtime‖ =
      (10 : ℝ) ^ (-13 : ℤ) := minStepFor_16
  rw [e, if_pos] at h
  · simp only [stA] at h
    have h2 := lt_of_le_of_lt (le_max_right _ _) h
    norm_num at h2
  · simp only [stA, cfgA, cfgE]; norm_num

/-- C73, the part that holds: if the reduced step is still representable at the current precision, the
step shrinks at least by the failure factor. -/
theorem C73_partial (cfg : Cfg) (ac : AmpCfg) (env : Env X) (i : ℕ) (s : St X)
    (hf : cfg.failFactor < 1) (hs : 0 < s.step)
    (h : minStepFor s.prec ‖s.time - s.endtime‖ ≤ s.step * cfg.failFactor) :
    (ampCriterionError cfg ac env i s).step ≤ s.step * cfg.failFactor ∧
    (ampCriterionError cfg ac env i s).step < s.step := by
  have : (ampCriterionError cfg ac env i s).step ≤ s.step * cfg.failFactor := by
    unfold ampCriterionError
    dsimp only
    rw [if_neg (not_lt.2 h)]
    exact minimize_step_le _ _ _ _ _ h
  exact ⟨this, by nlinarith⟩

/-- Witness for `C73_partial`. -/
example : minStepFor (stA 16 (1 / 10)).prec ‖(stA 16 (1 / 10)).time - (stA 16 (1 / 10)).endtime‖ ≤
    (stA 16 (1 / 10)).step * cfgA.failFactor := by
  have e : minStepFor (stA 16 (1 / 10)).prec ‖(stA 16 (1 / 10)).time - (stA 16 (1 / 10)).endtime‖ =
      (10 : ℝ) ^ (-13 : ℤ) := minStepFor_16
  rw [e]
  simp only [stA, cfgA, cfgE]
  norm_num

/-- C74 in full: the step size proposed for a precision `p` satisfies criterion B, i.e. is at most
`10^((p - digitsB) n / (order+1))`. -/
def C74_full : Prop :=
  ∀ p digitsB n order : ℕ, p < 10 ^ 4 → digitsB < 10 ^ 4 → n < 10 ^ 4 → order < 10 ^ 4 →
    stepsizeB p digitsB n order ≤ (10 : ℝ) ^ (((p : ℝ) - digitsB) * n / (order + 1))

theorem critBExponent_of_le {p d n o : ℕ} (h : d ≤ p) (hp : p < 2 ^ 32) (hn : (p - d) * n < 2 ^ 32) :
    critBExponent p d n o = (p - d) * n / (o + 1) := by
  unfold critBExponent
  dsimp only
  have e1 : p % 2 ^ 32 = p := Nat.mod_eq_of_lt hp
  rw [e1]
  have e2 : (2 ^ 32 - (d + 2 ^ 32 - p) % 2 ^ 32) % 2 ^ 32 = p - d := by
    by_cases hd : d = p
    · subst hd
      have : d + 2 ^ 32 - d = 2 ^ 32 := by omega
      rw [this]
      simp
    · have : d + 2 ^ 32 - p < 2 ^ 32 := by omega
      rw [Nat.mod_eq_of_lt this]
      have h2 : 2 ^ 32 - (d + 2 ^ 32 - p) = p - d := by omega
      rw [h2, Nat.mod_eq_of_lt (by omega)]
  rw [e2, Nat.mod_eq_of_lt hn]

/-- C74, the part that holds: for precisions at or above the required digits. -/
theorem C74_partial (p digitsB n order : ℕ) (h : digitsB ≤ p) (hp : p < 10 ^ 4) (hn : n < 10 ^ 4) :
    stepsizeB p digitsB n order ≤ (10 : ℝ) ^ (((p : ℝ) - digitsB) * n / (order + 1)) := by
  have hlt : (p - digitsB) * n < 2 ^ 32 := by
    have : (p - digitsB) * n ≤ 10 ^ 4 * 10 ^ 4 := Nat.mul_le_mul (by omega) (by omega)
    omega
  unfold stepsizeB
  rw [critBExponent_of_le h (by omega) hlt, ← Real.rpow_natCast]
  apply Real.rpow_le_rpow_of_exponent_le (by norm_num)
  have h1 : (((p - digitsB) * n / (order + 1) : ℕ) : ℝ) ≤
      (((p - digitsB) * n : ℕ) : ℝ) / ((order + 1 : ℕ) : ℝ) := Nat.cast_div_le
  refine le_trans h1 (le_of_eq ?_)
  push_cast [Nat.cast_sub h]
  ring

/-- Witness for `C74_partial`. -/
example : (30 : ℕ) ≤ 40 ∧ (40 : ℕ) < 10 ^ 4 ∧ (2 : ℕ) < 10 ^ 4 := by norm_num

/-- Below the required digits the unsigned subtraction wraps around and the "small" step is an
enormous one. -/
theorem C74_refuted : ¬ C74_full := by
  intro H
  have h := H 40 45 2 4 (by norm_num) (by norm_num) (by norm_num) (by norm_num)
  have h1 : (1 : ℝ) ≤ stepsizeB 40 45 2 4 := one_le_pow₀ (by norm_num)
  have h2 : (10 : ℝ) ^ (((40 : ℕ) : ℝ) - ((45 : ℕ) : ℝ)) * 1 < 1 * 1 := by
    rw [mul_one, mul_one]
    apply Real.rpow_lt_one_of_one_lt_of_neg (by norm_num) (by norm_num)
  have h3 : (10 : ℝ) ^ ((((40 : ℕ) : ℝ) - ((45 : ℕ) : ℝ)) * ((2 : ℕ) : ℝ) / (((4 : ℕ) : ℝ) + 1)) < 1 :=
    Real.rpow_lt_one_of_one_lt_of_neg (by norm_num) (by norm_num)
  linarith

/-- Consequence: as long as the permitted maximum step is at most 1 (every run on the unit interval),
`MinimizeTrackingCost` never proposes anything but that maximum, whatever the criterion: it returns
`max_stepsize`, or its failure value. -/
theorem C74_noChoice (a b : ℕ) (mn mx : ℝ) (dB n o : ℕ) (h : mx ≤ 1) :
    minimizeCost a mn b mx dB n o = (mn, 1001) ∨
    (minimizeCost a mn b mx dB n o).1 = mx := by
  rcases minimize_cases a b mn mx dB n o with e | ⟨p, _, e⟩
  · exact Or.inl e
  · right
    rw [e]
    have : (1 : ℝ) ≤ stepsizeB p dB n o := one_le_pow₀ (by norm_num)
    exact min_eq_right (le_trans h this)

/-- Witness for `C41_terminates`, `C41_cap`, `C38_amp_time`: the settings meet the hypotheses. -/
example : 0 < cfgA.failFactor ∧ cfgA.failFactor < 1 ∧ 0 < cfgA.minStep ∧ acA.maxPrec ≤ 1000 ∧
    16 ≤ (stA 16 (1 / 10)).prec := by
  refine ⟨by norm_num [cfgA, cfgE], by norm_num [cfgA, cfgE], ?_, by simp [acA], by simp [stA]⟩
  simp only [cfgA]; positivity

/-- Witness for `C41_initial`: a start point that only refines from 30 digits on. -/
example : initialRefinement 300 (fun p (x : ℤ) => if 30 ≤ p then some (x + 1) else none) 16 5 =
    (.success, 30, 6) := by
  simp [initialRefinement, refineLoop, bump]

end B2.Track
