/-
Property theorems about how the adaptive-precision tracker chooses step size and precision:
C91 (`MinimizeTrackingCost` minimises), C92 (precision decreases), C93 (step size increases), and the part of C90
that fails.
-/
import Verif.Track.PropsSteps

namespace B2.Track

set_option linter.unusedSectionVars false

open Classical

variable {X : Type} [Add X]

/-! ### C91 -/

/-- Specification: the cost of tracking with `p` digits and steps of length `h`, per unit of time: 1 per step in double
precision, `10.35 + 0.13 p` per step at `p` digits in multiple precision. -/
noncomputable def trackCost (p : ℕ) (h : ℝ) : ℝ := (if p = 16 then 1 else 10.35 + 0.13 * (p : ℝ)) / |h|

/-- Specification: the precisions considered between `a` and `b`: double precision if `a` is no more than that, and
the multiples of ten, from 20 on, between `a` and `b`, each rounded down to a multiple of ten (but to no less than
20). -/
def Considered (a b p : ℕ) : Prop :=
  (p = 16 ∧ a ≤ 16) ∨ (10 ∣ p ∧ max 20 (a / 10 * 10) ≤ p ∧ p ≤ max 20 (b / 10 * 10))

/-- Specification: the step to be taken at a precision: what criterion B permits, but at most the maximum. -/
noncomputable def permitted (mx : ℝ) (dB n o p : ℕ) : ℝ := min (stepsizeB p dB n o) mx

theorem mem_candidates (a b p : ℕ) : p ∈ candidates a b ↔ Considered a b p := by
  unfold candidates Considered
  simp only [List.mem_append, List.mem_map, List.mem_range]
  have e1 : (if a < 20 then 20 else a / 10 * 10) = max 20 (a / 10 * 10) := by
    split_ifs with h <;> omega
  have e2 : (if b < 20 then 20 else b / 10 * 10) = max 20 (b / 10 * 10) := by
    split_ifs with h <;> omega
  rw [e1, e2]
  constructor
  · rintro (h | ⟨k, hk, rfl⟩)
    · split_ifs at h with h1
      · simp at h; exact Or.inl ⟨h, h1⟩
      · simp at h
    · right
      refine ⟨?_, by omega, by omega⟩
      rcases le_total 20 (a / 10 * 10) with h | h
      · rw [max_eq_right h]; omega
      · rw [max_eq_left h]; omega
  · rintro (⟨rfl, h⟩ | ⟨h1, h2, h3⟩)
    · left; rw [if_pos h]; simp
    · right
      refine ⟨(p - max 20 (a / 10 * 10)) / 10, ?_, ?_⟩
      · rcases le_total 20 (a / 10 * 10) with h | h
        · rw [max_eq_right h] at h2 ⊢; omega
        · rw [max_eq_left h] at h2 ⊢; omega
      · rcases le_total 20 (a / 10 * 10) with h | h
        · rw [max_eq_right h] at h2 ⊢; omega
        · rw [max_eq_left h] at h2 ⊢; omega

theorem candidates_sorted (a b : ℕ) : (candidates a b).Pairwise (· < ·) := by
  unfold candidates
  dsimp only
  rw [List.pairwise_append]
  refine ⟨by split_ifs <;> simp, ?_, ?_⟩
  · rw [List.pairwise_map]
    exact (List.pairwise_lt_range).imp (fun h => by omega)
  · intro x hx y hy
    simp only [List.mem_map, List.mem_range] at hy
    obtain ⟨k, -, rfl⟩ := hy
    split_ifs at hx with h1
    · simp at hx; subst hx; split_ifs <;> omega
    · simp at hx

theorem minimizer_eq (mx : ℝ) (dB n o : ℕ) (st : ℝ × ℝ × ℕ) (p : ℕ) :
    minimizer mx dB n o st p = if permitted mx dB n o p ≠ 0 ∧ trackCost p (permitted mx dB n o p) < st.1 then
      (trackCost p (permitted mx dB n o p), permitted mx dB n o p, p) else st := rfl

/-- What the sequence of calls of `minimizer_routine` computes. -/
theorem minimizer_fold (mx : ℝ) (dB n o : ℕ) : ∀ (l : List ℕ) (st : ℝ × ℝ × ℕ), l.Pairwise (· < ·) →
    (l.foldl (minimizer mx dB n o) st = st ∧
      ∀ p ∈ l, permitted mx dB n o p ≠ 0 → st.1 ≤ trackCost p (permitted mx dB n o p)) ∨
    (∃ p ∈ l, l.foldl (minimizer mx dB n o) st =
        (trackCost p (permitted mx dB n o p), permitted mx dB n o p, p) ∧ permitted mx dB n o p ≠ 0 ∧
      trackCost p (permitted mx dB n o p) < st.1 ∧
      ∀ q ∈ l, permitted mx dB n o q ≠ 0 →
        trackCost p (permitted mx dB n o p) ≤ trackCost q (permitted mx dB n o q) ∧
        (q < p → trackCost p (permitted mx dB n o p) < trackCost q (permitted mx dB n o q))) := by
  intro l
  induction l with
  | nil => intro st _; left; simp
  | cons a l ih =>
    intro st hl
    rw [List.pairwise_cons] at hl
    simp only [List.foldl_cons]
    rw [minimizer_eq]
    by_cases hc : permitted mx dB n o a ≠ 0 ∧ trackCost a (permitted mx dB n o a) < st.1
    · rw [if_pos hc]
      rcases ih (trackCost a (permitted mx dB n o a), permitted mx dB n o a, a) hl.2 with
        ⟨h1, h2⟩ | ⟨p, hp, h1, h2, h3, h4⟩
      · right
        refine ⟨a, by simp, h1, hc.1, hc.2, fun q hq hq0 => ?_⟩
        rcases List.mem_cons.1 hq with rfl | hq
        · exact ⟨le_refl _, fun h => absurd h (lt_irrefl _)⟩
        · exact ⟨h2 q hq hq0, fun h => absurd (hl.1 q hq) (by omega)⟩
      · right
        refine ⟨p, by simp [hp], h1, h2, h3.trans hc.2, fun q hq hq0 => ?_⟩
        rcases List.mem_cons.1 hq with rfl | hq
        · exact ⟨h3.le, fun _ => h3⟩
        · exact h4 q hq hq0
    · rw [if_neg hc]
      rcases ih st hl.2 with ⟨h1, h2⟩ | ⟨p, hp, h1, h2, h3, h4⟩
      · left
        refine ⟨h1, fun q hq hq0 => ?_⟩
        rcases List.mem_cons.1 hq with rfl | hq
        · by_contra hlt
          push Not at hlt
          exact hc ⟨hq0, hlt⟩
        · exact h2 q hq hq0
      · right
        refine ⟨p, by simp [hp], h1, h2, h3, fun q hq hq0 => ?_⟩
        rcases List.mem_cons.1 hq with rfl | hq
        · have : st.1 ≤ trackCost q (permitted mx dB n o q) := by
            by_contra hlt
            push Not at hlt
            exact hc ⟨hq0, hlt⟩
          exact ⟨h3.le.trans this, fun _ => h3.trans_le this⟩
        · exact h4 q hq hq0

/-- Specification of an optimal choice: `p` digits and step `h`, a considered precision with the step permitted there,
of least cost among all considered precisions; and of these the least precision. -/
structure Optimal (a b : ℕ) (mx : ℝ) (dB n o : ℕ) (h : ℝ) (p : ℕ) : Prop where
  considered : Considered a b p
  step : h = permitted mx dB n o p
  least : ∀ q, Considered a b q → permitted mx dB n o q ≠ 0 →
    trackCost p h ≤ trackCost q (permitted mx dB n o q) ∧
    (q < p → trackCost p h < trackCost q (permitted mx dB n o q))

/-- **C91**: `MinimizeTrackingCost` returns the optimal choice if some considered precision has a cost that fits a
double; otherwise it returns the minimum step size and 1001 digits (more than any permitted precision, so the tracker
stops). -/
theorem C91_optimal_partial (a b : ℕ) (mn mx : ℝ) (dB n o : ℕ) :
    (Optimal a b mx dB n o (minimizeCost a mn b mx dB n o).1 (minimizeCost a mn b mx dB n o).2 ∧
      ∃ p, Considered a b p ∧ permitted mx dB n o p ≠ 0 ∧
        trackCost p (permitted mx dB n o p) < 2 ^ 1024 - 2 ^ 971) ∨
    (minimizeCost a mn b mx dB n o = (mn, 1001) ∧
      ∀ p, Considered a b p → permitted mx dB n o p ≠ 0 →
        2 ^ 1024 - 2 ^ 971 ≤ trackCost p (permitted mx dB n o p)) := by
  unfold minimizeCost
  rcases minimizer_fold mx dB n o (candidates a b) (dblMax, mn, 1000 + 1) (candidates_sorted a b) with
    ⟨h1, h2⟩ | ⟨p, hp, h1, h2, h3, h4⟩
  · right
    rw [h1]
    exact ⟨rfl, fun p hp => h2 p ((mem_candidates a b p).2 hp)⟩
  · left
    rw [h1]
    exact ⟨⟨(mem_candidates a b p).1 hp, rfl, fun q hq => h4 q ((mem_candidates a b q).2 hq)⟩,
      p, (mem_candidates a b p).1 hp, h2, h3⟩

/-- For a positive maximum at most 1 (criterion B never permits less than 1): the least considered precision, with the
maximum step. -/
theorem minimize_small {a b : ℕ} {mn mx : ℝ} {dB n o : ℕ} (h0 : 0 < mx) (h1 : mx ≤ 1) (p : ℕ)
    (hp : Considered a b p) (hl : ∀ q, Considered a b q → p ≤ q)
    (hcost : trackCost p mx < 2 ^ 1024 - 2 ^ 971) :
    minimizeCost a mn b mx dB n o = (mx, p) := by
  have hperm : ∀ q, permitted mx dB n o q = mx := by
    intro q
    have : (1 : ℝ) ≤ stepsizeB q dB n o := one_le_pow₀ (by norm_num)
    exact min_eq_right (h1.trans this)
  have hmono : ∀ q r : ℕ, 16 ≤ q → q < r → trackCost q mx < trackCost r mx := by
    intro q r h16 hqr
    unfold trackCost
    refine div_lt_div_of_pos_right ?_ (abs_pos.2 h0.ne')
    have hr : (q : ℝ) < r := by exact_mod_cast hqr
    have hq' : (16 : ℝ) ≤ q := by exact_mod_cast h16
    rw [if_neg (show ¬ r = 16 by omega)]
    split_ifs with hq
    · norm_num at *; linarith
    · norm_num at *; linarith
  have h16 : 16 ≤ p := by
    rcases hp with ⟨h, _⟩ | ⟨_, h, _⟩ <;> omega
  rcases C91_optimal_partial a b mn mx dB n o with ⟨⟨c1, c2, c3⟩, -⟩ | ⟨-, c⟩
  · rw [hperm] at c2
    have hle := hl _ c1
    have := (c3 p hp (by rw [hperm]; exact h0.ne')).1
    rw [hperm, c2] at this
    rcases hle.lt_or_eq with h | h
    · exact absurd (hmono p _ h16 h) (not_lt.2 this)
    · exact Prod.ext c2 h.symm
  · have := c p hp (by rw [hperm]; exact h0.ne')
    rw [hperm] at this
    linarith

/-- **C91 in full** also has: the precision returned is at least the "minimum considered precision" passed in. -/
def C91_full : Prop :=
  ∀ (a b : ℕ) (mn mx : ℝ) (dB n o : ℕ), 0 < mx → a ≤ b → b ≤ 1000 → a ≤ (minimizeCost a mn b mx dB n o).2

theorem dbl_big {x : ℝ} (h : x ≤ 10 ^ 6) : x < 2 ^ 1024 - 2 ^ 971 := by
  have e : (2 : ℝ) ^ 1024 = 2 ^ 971 * 2 ^ 53 := by rw [← pow_add]
  have h1 : (1 : ℝ) ≤ 2 ^ 971 := one_le_pow₀ (by norm_num)
  rw [e]
  generalize (2 : ℝ) ^ 971 = y at h1
  norm_num at h ⊢
  linarith

/-- **C91 fails** there: the minimum precision is rounded down. -/
theorem C91_refuted : ¬ C91_full := by
  intro H
  have h := H 25 25 0 1 0 2 4 (by norm_num) (by norm_num) (by norm_num)
  have h20 : Considered 25 25 20 := by right; norm_num
  rw [minimize_small (by norm_num) (by norm_num) 20 h20 ?_ ?_] at h
  · norm_num at h
  · rintro q (⟨_, h2⟩ | ⟨_, h2, _⟩)
    · omega
    · omega
  · apply dbl_big; norm_num [trackCost]

/-- Witness for C91: precisions from 16 to 30 digits, maximum step 1/2. -/
example : minimizeCost 16 (1 / 10) 30 (1 / 2) 16 2 4 = (1 / 2, 16) := by
  refine minimize_small (by norm_num) (by norm_num) 16 (Or.inl ⟨rfl, le_refl _⟩) ?_ ?_
  · rintro q (⟨rfl, _⟩ | ⟨_, h, _⟩) <;> omega
  · apply dbl_big; norm_num [trackCost]

/-! ### passes of the adaptive tracker -/

/-- Precisions the tracker moves between when started at one of them. -/
def OnGrid (p : ℕ) : Prop := p = 16 ∨ (10 ∣ p ∧ 20 ≤ p)

theorem bump_grid {p : ℕ} (h : OnGrid p) : OnGrid (bump p) := by
  unfold OnGrid bump at *
  split_ifs <;> omega

theorem bump_iter_grid {p : ℕ} (h : OnGrid p) (k : ℕ) : OnGrid (bump^[k] p) := by
  induction k with
  | zero => exact h
  | succ k ih => rw [Function.iterate_succ_apply']; exact bump_grid ih

theorem considered_grid {a b p : ℕ} (h : Considered a b p) : OnGrid p := by
  rcases h with ⟨h, _⟩ | ⟨h1, h2, _⟩
  · exact Or.inl h
  · exact Or.inr ⟨h1, by omega⟩

theorem minimize_grid (a b : ℕ) (mn mx : ℝ) (dB n o : ℕ) :
    OnGrid (minimizeCost a mn b mx dB n o).2 ∨ (minimizeCost a mn b mx dB n o).2 = 1001 := by
  rcases C91_optimal_partial a b mn mx dB n o with ⟨h, -⟩ | ⟨h, -⟩
  · exact Or.inl (considered_grid h.considered)
  · right; rw [h]

/-- What a pass of the adaptive tracker that leaves the loop running does. -/
theorem amp_pass (cfg : Cfg) (ac : AmpCfg) (env : Env X) (s0 : St X) (hmax : ac.maxPrec ≤ 1000) {i : ℕ}
    {s s' : St X} (h : ampRun cfg ac env s0 i = .running i s)
    (h' : ampRun cfg ac env s0 (i + 1) = .running (i + 1) s') (h16 : 16 ≤ s.prec) :
    s.prec ≤ ac.maxPrec ∧ cfg.minStep ≤ s.step ∧
    ((Succeeds cfg env (ampTracker cfg ac env) env.crit s0 i ∧
      ∃ p, s' = baseSuccess (adjustSuccess cfg ac env i { s with delta := nextDelta s, space := p })) ∨
    (¬ Succeeds cfg env (ampTracker cfg ac env) env.crit s0 i ∧ s'.sinceDec = 0 ∧ s'.sinceInc = 0 ∧
      s'.nDec = s.nDec ∧ s.prec ≤ s'.prec ∧ (OnGrid s.prec → OnGrid s'.prec ∨ s'.prec = 1001))) := by
  unfold ampRun at h h'
  rw [runAt_succ, h] at h'
  rcases loopStep_cases (cfg := cfg) (env := env) (T := ampTracker cfg ac env) i s with
    ⟨h1, e⟩ | ⟨h1, h2, e⟩ | ⟨h1, h2, _, _, e⟩ | ⟨h1, h2, h3, e⟩ | ⟨h1, h2, h3, e⟩
  · rw [e] at h'; cases h'
  · rw [e] at h'; cases h'
  · rw [e] at h'; cases h'
  all_goals
    have hpre : s.prec ≤ ac.maxPrec ∧ cfg.minStep ≤ s.step := by
      have h2' : ampPre cfg ac s = .success := h2
      unfold ampPre at h2'
      split_ifs at h2' with c1 c2 c3
      exact ⟨by omega, not_lt.1 c2⟩
    refine ⟨hpre.1, hpre.2, ?_⟩
    rw [e] at h'
    simp only [Run.running.injEq, true_and] at h'
    have hS := succeeds_iff (amp_faithful cfg ac env) h h1 h2
  · left
    refine ⟨hS.2 h3, ?_⟩
    rcases ampIter_cases cfg ac env i { s with delta := nextDelta s } with ⟨q, p, a1, a2, a3⟩ | ⟨_, a2, _⟩
    · refine ⟨p, ?_⟩
      rw [← h']
      simp only [ampTracker, a3]
    · exact absurd h3 a2
  · right
    refine ⟨fun hs => h3 (hS.1 hs), ?_⟩
    subst h'
    rcases ampIter_cases cfg ac env i { s with delta := nextDelta s } with
      ⟨q, p, a1, a2, a3⟩ | ⟨_, a2, a3 | a3 | ⟨_, a3⟩⟩
    · exact absurd (show ((ampTracker cfg ac env).iter i { s with delta := nextDelta s }).1 = .success by
        simp only [ampTracker, a3]) h3
    · simp only [ampTracker, a3]
      refine ⟨trivial, trivial, rfl, (initialMatrix_prec _ h16).le, fun hg => Or.inl ?_⟩
      unfold baseFail initialMatrixSolveError
      dsimp only
      unfold OnGrid at *
      split_ifs <;> omega
    · simp only [ampTracker, a3]
      refine ⟨trivial, trivial, rfl, (newtonConv_facts cfg _).2.1, fun hg => Or.inl ?_⟩
      unfold baseFail newtonConvergenceError
      dsimp only
      split_ifs with hk
      · exact bump_iter_grid hg _
      · exact hg
    · simp only [ampTracker, a3]
      refine ⟨trivial, trivial, ?_, ?_, ?_⟩
      · unfold baseFail ampCriterionError
        dsimp only
        split_ifs <;> rfl
      · exact (C42_partial cfg ac env i { s with delta := nextDelta s } hmax h2 h16).1.le
      · intro hg
        unfold baseFail ampCriterionError
        dsimp only
        split_ifs with k1 k2
        · left; unfold OnGrid; dsimp only; omega
        · left; unfold OnGrid at *; dsimp only; omega
        · exact minimize_grid _ _ _ _ _ _ _
        · exact minimize_grid _ _ _ _ _ _ _

/-! ### C92, C93 -/

/-- Specification: pass `i` lowered the working precision. -/
def PrecDrop (cfg : Cfg) (ac : AmpCfg) (env : Env X) (s0 : St X) (i : ℕ) : Prop :=
  ∃ s s', ampRun cfg ac env s0 i = .running i s ∧ ampRun cfg ac env s0 (i + 1) = .running (i + 1) s' ∧
    s'.prec < s.prec

/-- Specification: pass `i` raised the step size. -/
def StepUp (cfg : Cfg) (ac : AmpCfg) (env : Env X) (s0 : St X) (i : ℕ) : Prop :=
  ∃ s s', ampRun cfg ac env s0 i = .running i s ∧ ampRun cfg ac env s0 (i + 1) = .running (i + 1) s' ∧
    s.step < s'.step

/-- Specification: pass `i` accepted a step. -/
abbrev AmpOk (cfg : Cfg) (ac : AmpCfg) (env : Env X) (s0 : St X) (i : ℕ) : Prop :=
  Succeeds cfg env (ampTracker cfg ac env) env.crit s0 i

/-- Specification: the `N` passes before pass `i` exist and all satisfy `P`. -/
def Preceded (P : ℕ → Prop) (N i : ℕ) : Prop := N ≤ i ∧ ∀ j, i - N ≤ j → j < i → P j

theorem trailing_preceded {P : ℕ → Prop} {n k N : ℕ} (h : Trailing P n k) (hk : N ≤ k) : Preceded P N n :=
  ⟨hk.trans h.1, fun j h1 h2 => h.2.1 j (by omega) h2⟩

/-- Specification: precision is lowered only by accepted steps, each time after
`consecutive_successful_steps_before_precision_decrease` accepted steps in a row that did not lower it, and at most
`max_num_precision_decreases` times in the call; `num_precision_decreases_` counts these. -/
structure LowersRarely (cfg : Cfg) (ac : AmpCfg) (env : Env X) (s0 : St X) : Prop where
  accepted : ∀ i, PrecDrop cfg ac env s0 i → AmpOk cfg ac env s0 i
  preceded : ∀ i, PrecDrop cfg ac env s0 i →
    Preceded (fun j => AmpOk cfg ac env s0 j ∧ ¬ PrecDrop cfg ac env s0 j) ac.stepsForPrecDecrease i
  atMost : ∀ n, ((Finset.range n).filter (PrecDrop cfg ac env s0)).card ≤ ac.maxPrecDecreases
  counter : ∀ n s, ampRun cfg ac env s0 n = .running n s →
    s.nDec = ((Finset.range n).filter (PrecDrop cfg ac env s0)).card

/-- Specification: an accepted step raises the step size only after
`consecutive_successful_steps_before_stepsize_increase` accepted steps in a row that neither raised it nor lowered the
precision, and then at most by the factor `step_size_success_factor` and to `max_step_size`. -/
structure RaisesRarely (cfg : Cfg) (ac : AmpCfg) (env : Env X) (s0 : St X) : Prop where
  preceded : ∀ i, AmpOk cfg ac env s0 i → StepUp cfg ac env s0 i →
    Preceded (fun j => AmpOk cfg ac env s0 j ∧ ¬ (StepUp cfg ac env s0 j ∨ PrecDrop cfg ac env s0 j))
      cfg.stepsForIncrease i
  size : ∀ i s s', AmpOk cfg ac env s0 i → ampRun cfg ac env s0 i = .running i s →
    ampRun cfg ac env s0 (i + 1) = .running (i + 1) s' →
    s'.step ≤ s.step ∨ (s'.step ≤ s.step * cfg.successFactor ∧ s'.step ≤ cfg.maxStep)

theorem precDrop_iff {cfg : Cfg} {ac : AmpCfg} {env : Env X} {s0 : St X} {i : ℕ} {s s' : St X}
    (h : ampRun cfg ac env s0 i = .running i s) (h' : ampRun cfg ac env s0 (i + 1) = .running (i + 1) s') :
    PrecDrop cfg ac env s0 i ↔ s'.prec < s.prec := by
  constructor
  · rintro ⟨a, b, h1, h2, h3⟩
    rw [h] at h1; rw [h'] at h2
    cases h1; cases h2; exact h3
  · exact fun hc => ⟨s, s', h, h', hc⟩

theorem stepUp_iff {cfg : Cfg} {ac : AmpCfg} {env : Env X} {s0 : St X} {i : ℕ} {s s' : St X}
    (h : ampRun cfg ac env s0 i = .running i s) (h' : ampRun cfg ac env s0 (i + 1) = .running (i + 1) s') :
    StepUp cfg ac env s0 i ↔ s.step < s'.step := by
  constructor
  · rintro ⟨a, b, h1, h2, h3⟩
    rw [h] at h1; rw [h'] at h2
    cases h1; cases h2; exact h3
  · exact fun hc => ⟨s, s', h, h', hc⟩

/-- The pass before a running state was running too. -/
theorem running_pred {cfg : Cfg} {ac : AmpCfg} {env : Env X} {s0 : St X} {n : ℕ} {s' : St X}
    (h' : ampRun cfg ac env s0 (n + 1) = .running (n + 1) s') : ∃ s, ampRun cfg ac env s0 n = .running n s := by
  unfold ampRun at *
  rw [runAt_succ] at h'
  cases hr : runAt cfg env (ampTracker cfg ac env) s0 n with
  | done c s o => rw [hr] at h'; cases h'
  | running i s =>
    have := runAt_index hr
    subst this
    exact ⟨s, rfl⟩

/-- Effect of an accepted step on the data of the adaptive tracker. -/
theorem adjust_facts (cfg : Cfg) (ac : AmpCfg) (env : Env X) (i : ℕ) (s : St X)
    (hf1 : cfg.failFactor < 1) (hs : 0 < s.step) :
    let s' := adjustSuccess cfg ac env i s
    (s.step < s'.step → cfg.stepsForIncrease ≤ s.sinceInc ∧ s'.step ≤ s.step * cfg.successFactor ∧
      s'.step ≤ cfg.maxStep) ∧
    (OnGrid s.prec → s.prec ≤ 1000 → s'.prec < s.prec →
      ac.stepsForPrecDecrease ≤ s.sinceDec ∧ s.nDec < ac.maxPrecDecreases) ∧
    (OnGrid s'.prec ∨ s'.prec = 1001) ∧
    s'.nDec = (if s'.prec < s.prec then s.nDec + 1 else s.nDec) ∧
    s'.sinceDec = (if s'.prec < s.prec then 0 else s.sinceDec + 1) ∧
    s'.sinceInc = (if s.step < s'.step ∨ s'.prec < s.prec then 0 else s.sinceInc + 1) := by
  unfold adjustSuccess
  dsimp only
  generalize hmp : (if s.sinceDec < ac.stepsForPrecDecrease ∨ ac.maxPrecDecreases ≤ s.nDec then
    max (minRequired ac env i) s.prec else minRequired ac env i) = a
  generalize hmx : (if s.sinceInc < cfg.stepsForIncrease then s.step
    else min (s.step * cfg.successFactor) cfg.maxStep) = mx
  refine ⟨fun hlt => ?_, fun hg h1000 hlt => ?_, minimize_grid _ _ _ _ _ _ _, rfl, rfl, rfl⟩
  · have hle : (minimizeCost a (s.step * cfg.failFactor) (max (minRequired ac env i) s.prec) mx (env.digitsB i)
        cfg.maxNewton ac.order).1 ≤ mx := by
      rcases minimize_cases a (max (minRequired ac env i) s.prec) (s.step * cfg.failFactor) mx (env.digitsB i)
        cfg.maxNewton ac.order with e | ⟨p, _, e⟩
      · rw [e] at hlt
        dsimp only at hlt
        nlinarith
      · rw [e]; exact min_le_right _ _
    by_cases hc : s.sinceInc < cfg.stepsForIncrease
    · rw [if_pos hc] at hmx
      linarith
    · rw [if_neg hc] at hmx
      rw [← hmx] at hle ⊢
      exact ⟨not_lt.1 hc, hle.trans (min_le_left _ _), hle.trans (min_le_right _ _)⟩
  · by_cases hc : s.sinceDec < ac.stepsForPrecDecrease ∨ ac.maxPrecDecreases ≤ s.nDec
    · exfalso
      rw [if_pos hc] at hmp
      have ha : s.prec ≤ a := by rw [← hmp]; exact le_max_right _ _
      rcases C91_optimal_partial a (max (minRequired ac env i) s.prec) (s.step * cfg.failFactor) mx (env.digitsB i)
        cfg.maxNewton ac.order with ⟨⟨c1, -, -⟩, -⟩ | ⟨e, -⟩
      · generalize (minimizeCost a (s.step * cfg.failFactor) (max (minRequired ac env i) s.prec) mx (env.digitsB i)
          cfg.maxNewton ac.order).2 = p at c1 hlt
        unfold OnGrid at hg
        unfold Considered at c1
        omega
      · rw [e] at hlt
        dsimp only at hlt
        omega
    · push Not at hc
      exact ⟨hc.1, hc.2⟩

/-- Everything C92 and C93 need, along a run. -/
theorem amp_adjust_inv (cfg : Cfg) (ac : AmpCfg) (env : Env X) (s0 : St X) (hmax : ac.maxPrec ≤ 1000)
    (hf1 : cfg.failFactor < 1) (hmin : 0 < cfg.minStep) (hg : OnGrid s0.prec)
    (z1 : s0.sinceInc = 0) (z2 : s0.sinceDec = 0) (z3 : s0.nDec = 0) :
    ∀ n s, ampRun cfg ac env s0 n = .running n s →
      (OnGrid s.prec ∨ s.prec = 1001) ∧
      Trailing (fun j => AmpOk cfg ac env s0 j ∧ ¬ PrecDrop cfg ac env s0 j) n s.sinceDec ∧
      Trailing (fun j => AmpOk cfg ac env s0 j ∧ ¬ (StepUp cfg ac env s0 j ∨ PrecDrop cfg ac env s0 j)) n s.sinceInc ∧
      s.nDec = ((Finset.range n).filter (PrecDrop cfg ac env s0)).card ∧
      s.nDec ≤ ac.maxPrecDecreases ∧
      (∀ i, i < n → PrecDrop cfg ac env s0 i → AmpOk cfg ac env s0 i ∧
        Preceded (fun j => AmpOk cfg ac env s0 j ∧ ¬ PrecDrop cfg ac env s0 j) ac.stepsForPrecDecrease i) ∧
      (∀ i, i < n → AmpOk cfg ac env s0 i → StepUp cfg ac env s0 i →
        Preceded (fun j => AmpOk cfg ac env s0 j ∧ ¬ (StepUp cfg ac env s0 j ∨ PrecDrop cfg ac env s0 j))
          cfg.stepsForIncrease i) := by
  intro n
  induction n with
  | zero =>
    intro s h
    simp [ampRun, runAt] at h
    subst h
    refine ⟨Or.inl hg, ?_, ?_, by simp [z3], by omega, fun i hi => by omega, fun i hi => by omega⟩
    · rw [z2]; exact ⟨le_refl _, fun i h1 h2 => by omega, fun h => by omega⟩
    · rw [z1]; exact ⟨le_refl _, fun i h1 h2 => by omega, fun h => by omega⟩
  | succ n ih =>
    intro s' h'
    obtain ⟨s, h⟩ := running_pred h'
    obtain ⟨e1, e2, e3, e4, e5, e6, e7⟩ := ih s h
    have h16 : 16 ≤ s.prec := by unfold OnGrid at e1; omega
    obtain ⟨p1, p2, p3⟩ := amp_pass cfg ac env s0 hmax h h' h16
    have hg' : OnGrid s.prec := by
      rcases e1 with e1 | e1
      · exact e1
      · omega
    have hcard : ((Finset.range (n + 1)).filter (PrecDrop cfg ac env s0)).card =
        ((Finset.range n).filter (PrecDrop cfg ac env s0)).card + (if s'.prec < s.prec then 1 else 0) := by
      rw [Finset.range_add_one, Finset.filter_insert]
      by_cases hc : s'.prec < s.prec
      · rw [if_pos ((precDrop_iff h h').2 hc), if_pos hc, Finset.card_insert_of_notMem (by simp)]
      · rw [if_neg (fun hd => hc ((precDrop_iff h h').1 hd)), if_neg hc, add_zero]
    rcases p3 with ⟨ok, p, rfl⟩ | ⟨nok, d1, d2, d3, d4, d5⟩
    · obtain ⟨a1, a2, a3, a4, a5, a6⟩ := adjust_facts cfg ac env n { s with delta := nextDelta s, space := p } hf1
        (lt_of_lt_of_le hmin p2)
      generalize hb : adjustSuccess cfg ac env n { s with delta := nextDelta s, space := p } = t at *
      dsimp only at a1 a2 a4 a5 a6
      have k1 : (baseSuccess t).prec = t.prec := rfl
      have k2 : (baseSuccess t).sinceDec = t.sinceDec := rfl
      have k3 : (baseSuccess t).sinceInc = t.sinceInc := rfl
      have k4 : (baseSuccess t).nDec = t.nDec := rfl
      have k5 : (baseSuccess t).step = t.step := rfl
      have dp := precDrop_iff h h'
      have du := stepUp_iff h h'
      rw [k1] at dp hcard
      rw [k5] at du
      rw [k1, k2, k3, k4, hcard]
      refine ⟨a3, ?_, ?_, ?_, ?_, ?_, ?_⟩
      · rw [a5]
        by_cases hc : t.prec < s.prec
        · rw [if_pos hc]; exact trailing_no (fun hh => hh.2 (dp.2 hc))
        · rw [if_neg hc]; exact trailing_yes e2 ⟨ok, fun hh => hc (dp.1 hh)⟩
      · rw [a6]
        by_cases hc : s.step < t.step ∨ t.prec < s.prec
        · rw [if_pos hc]
          exact trailing_no (fun hh => hh.2 (hc.imp du.2 dp.2))
        · rw [if_neg hc]
          exact trailing_yes e3 ⟨ok, fun hh => hc (hh.imp du.1 dp.1)⟩
      · rw [a4, ← e4]; split_ifs <;> rfl
      · rw [a4]
        by_cases hc : t.prec < s.prec
        · rw [if_pos hc]; have := (a2 hg' (by omega) hc).2; omega
        · rw [if_neg hc]; exact e5
      · intro i hi hd
        rcases Nat.lt_succ_iff_lt_or_eq.1 hi with hi | rfl
        · exact e6 i hi hd
        · exact ⟨ok, trailing_preceded e2 (a2 hg' (by omega) (dp.1 hd)).1⟩
      · intro i hi hok hd
        rcases Nat.lt_succ_iff_lt_or_eq.1 hi with hi | rfl
        · exact e7 i hi hok hd
        · exact trailing_preceded e3 (a1 (du.1 hd)).1
    · have hc : ¬ s'.prec < s.prec := by omega
      rw [if_neg hc, add_zero] at hcard
      refine ⟨d5 hg', ?_, ?_, by rw [hcard, d3, e4], by rw [d3]; exact e5, ?_, ?_⟩
      · rw [d1]; exact trailing_no (fun hh => nok hh.1)
      · rw [d2]; exact trailing_no (fun hh => nok hh.1)
      · intro i hi hd
        rcases Nat.lt_succ_iff_lt_or_eq.1 hi with hi | rfl
        · exact e6 i hi hd
        · exact absurd ((precDrop_iff h h').1 hd) hc
      · intro i hi hok hd
        rcases Nat.lt_succ_iff_lt_or_eq.1 hi with hi | rfl
        · exact e7 i hi hok hd
        · exact absurd hok nok

theorem init_grid {ac : AmpCfg} {refine' : ℕ → X → Option X} {p0 : ℕ} (x0 : X) (hp : OnGrid p0) :
    OnGrid (initialRefinement ac.maxPrec refine' p0 x0).2.1 := by
  rcases C41_initial ac.maxPrec refine' p0 x0 with ⟨k, y, e, -⟩ | ⟨k, e, -⟩ <;> rw [e] <;>
    exact bump_iter_grid hp k

/-- **C92 in full**: `LowersRarely` for every start precision (at least double). -/
def C92_full : Prop :=
  ∀ (cfg : Cfg) (ac : AmpCfg) (env : Env ℤ) (refine' : ℕ → ℤ → Option ℤ) (reinit : Bool) (oldStep : ℝ)
    (oldDelta t0 t1 : ℂ) (p0 : ℕ) (x0 : ℤ), ac.maxPrec ≤ 1000 → cfg.failFactor < 1 → 0 < cfg.minStep → 16 ≤ p0 →
    LowersRarely cfg ac env (ampInit cfg ac refine' reinit oldStep oldDelta t0 t1 p0 x0).2

/-- **C92, the part that holds**: for a call started in double precision, or at a multiple of ten digits. -/
theorem C92_partial (cfg : Cfg) (ac : AmpCfg) (env : Env X) (refine' : ℕ → X → Option X) (reinit : Bool)
    (oldStep : ℝ) (oldDelta t0 t1 : ℂ) (p0 : ℕ) (x0 : X) (hmax : ac.maxPrec ≤ 1000) (hf1 : cfg.failFactor < 1)
    (hmin : 0 < cfg.minStep) (hp : p0 = 16 ∨ (10 ∣ p0 ∧ 20 ≤ p0)) :
    LowersRarely cfg ac env (ampInit cfg ac refine' reinit oldStep oldDelta t0 t1 p0 x0).2 := by
  have I := amp_adjust_inv cfg ac env (ampInit cfg ac refine' reinit oldStep oldDelta t0 t1 p0 x0).2 hmax hf1 hmin
    (init_grid x0 hp) rfl rfl rfl
  generalize (ampInit cfg ac refine' reinit oldStep oldDelta t0 t1 p0 x0).2 = s0 at *
  refine ⟨?_, ?_, ?_, fun n s h => (I n s h).2.2.2.1⟩
  · rintro i ⟨s, s', h, h', hlt⟩
    exact ((I _ _ h').2.2.2.2.2.1 i (Nat.lt_succ_self i) ⟨s, s', h, h', hlt⟩).1
  · rintro i ⟨s, s', h, h', hlt⟩
    exact ((I _ _ h').2.2.2.2.2.1 i (Nat.lt_succ_self i) ⟨s, s', h, h', hlt⟩).2
  · intro n
    induction n with
    | zero => simp
    | succ n ih =>
      by_cases hd : PrecDrop cfg ac env s0 n
      · obtain ⟨s, s', h, h', hlt⟩ := hd
        rw [← (I _ _ h').2.2.2.1]
        exact (I _ _ h').2.2.2.2.1
      · rw [Finset.range_add_one, Finset.filter_insert, if_neg hd]
        exact ih

/-- Everything C93 needs, along a run started at any precision. -/
theorem amp_raise_inv (cfg : Cfg) (ac : AmpCfg) (env : Env X) (s0 : St X) (hmax : ac.maxPrec ≤ 1000)
    (hf1 : cfg.failFactor < 1) (hmin : 0 < cfg.minStep) (hg : 16 ≤ s0.prec) (z1 : s0.sinceInc = 0) :
    ∀ n s, ampRun cfg ac env s0 n = .running n s →
      16 ≤ s.prec ∧
      Trailing (fun j => AmpOk cfg ac env s0 j ∧ ¬ (StepUp cfg ac env s0 j ∨ PrecDrop cfg ac env s0 j)) n s.sinceInc ∧
      (∀ i, i < n → AmpOk cfg ac env s0 i → StepUp cfg ac env s0 i →
        Preceded (fun j => AmpOk cfg ac env s0 j ∧ ¬ (StepUp cfg ac env s0 j ∨ PrecDrop cfg ac env s0 j))
          cfg.stepsForIncrease i) := by
  intro n
  induction n with
  | zero =>
    intro s h
    simp [ampRun, runAt] at h
    subst h
    refine ⟨hg, ?_, fun i hi => by omega⟩
    rw [z1]; exact ⟨le_refl _, fun i h1 h2 => by omega, fun h => by omega⟩
  | succ n ih =>
    intro s' h'
    obtain ⟨s, h⟩ := running_pred h'
    obtain ⟨h16, e3, e7⟩ := ih s h
    obtain ⟨p1, p2, p3⟩ := amp_pass cfg ac env s0 hmax h h' h16
    rcases p3 with ⟨ok, p, rfl⟩ | ⟨nok, d1, d2, d3, d4, d5⟩
    · obtain ⟨a1, a2, a3, a4, a5, a6⟩ := adjust_facts cfg ac env n { s with delta := nextDelta s, space := p } hf1
        (lt_of_lt_of_le hmin p2)
      generalize hb : adjustSuccess cfg ac env n { s with delta := nextDelta s, space := p } = t at *
      dsimp only at a1 a6
      have k1 : (baseSuccess t).prec = t.prec := rfl
      have k3 : (baseSuccess t).sinceInc = t.sinceInc := rfl
      have k5 : (baseSuccess t).step = t.step := rfl
      have dp := precDrop_iff h h'
      have du := stepUp_iff h h'
      rw [k1] at dp
      rw [k5] at du
      rw [k1, k3]
      refine ⟨by unfold OnGrid at a3; omega, ?_, ?_⟩
      · rw [a6]
        by_cases hc : s.step < t.step ∨ t.prec < s.prec
        · rw [if_pos hc]
          exact trailing_no (fun hh => hh.2 (hc.imp du.2 dp.2))
        · rw [if_neg hc]
          exact trailing_yes e3 ⟨ok, fun hh => hc (hh.imp du.1 dp.1)⟩
      · intro i hi hok hd
        rcases Nat.lt_succ_iff_lt_or_eq.1 hi with hi | rfl
        · exact e7 i hi hok hd
        · exact trailing_preceded e3 (a1 (du.1 hd)).1
    · refine ⟨by omega, ?_, ?_⟩
      · rw [d2]; exact trailing_no (fun hh => nok hh.1)
      · intro i hi hok hd
        rcases Nat.lt_succ_iff_lt_or_eq.1 hi with hi | rfl
        · exact e7 i hi hok hd
        · exact absurd hok nok

theorem bump_iter_16 {p : ℕ} (hp : 16 ≤ p) (k : ℕ) : 16 ≤ bump^[k] p := by
  induction k generalizing p with
  | zero => exact hp
  | succ k ih =>
    rw [Function.iterate_succ_apply]
    apply ih
    unfold bump
    split_ifs <;> omega

theorem init_16 {ac : AmpCfg} {refine' : ℕ → X → Option X} {p0 : ℕ} (x0 : X) (hp : 16 ≤ p0) :
    16 ≤ (initialRefinement ac.maxPrec refine' p0 x0).2.1 := by
  rcases C41_initial ac.maxPrec refine' p0 x0 with ⟨k, y, e, -⟩ | ⟨k, e, -⟩ <;> rw [e] <;>
    exact bump_iter_16 hp k

/-- **C93**: when the adaptive tracker raises its step size after an accepted step; for a call started at any precision
(at least double). -/
theorem C93 (cfg : Cfg) (ac : AmpCfg) (env : Env X) (refine' : ℕ → X → Option X) (reinit : Bool)
    (oldStep : ℝ) (oldDelta t0 t1 : ℂ) (p0 : ℕ) (x0 : X) (hmax : ac.maxPrec ≤ 1000) (hf1 : cfg.failFactor < 1)
    (hmin : 0 < cfg.minStep) (hp : 16 ≤ p0) :
    RaisesRarely cfg ac env (ampInit cfg ac refine' reinit oldStep oldDelta t0 t1 p0 x0).2 := by
  have I := amp_raise_inv cfg ac env (ampInit cfg ac refine' reinit oldStep oldDelta t0 t1 p0 x0).2 hmax hf1 hmin
    (init_16 x0 hp) rfl
  generalize (ampInit cfg ac refine' reinit oldStep oldDelta t0 t1 p0 x0).2 = s0 at *
  refine ⟨?_, ?_⟩
  · rintro i hok ⟨s, s', h, h', hlt⟩
    exact (I _ _ h').2.2 i (Nat.lt_succ_self i) hok ⟨s, s', h, h', hlt⟩
  · intro i s s' hok h h'
    have h16 := (I _ _ h).1
    obtain ⟨p1, p2, p3⟩ := amp_pass cfg ac env s0 hmax h h' h16
    rcases p3 with ⟨-, p, rfl⟩ | ⟨nok, -⟩
    · obtain ⟨a1, -⟩ := adjust_facts cfg ac env i { s with delta := nextDelta s, space := p } hf1
        (lt_of_lt_of_le hmin p2)
      rcases le_or_gt (baseSuccess (adjustSuccess cfg ac env i { s with delta := nextDelta s, space := p })).step
        s.step with hle | hlt
      · exact Or.inl hle
      · exact Or.inr (a1 hlt).2
    · exact absurd hok nok

/-! ### concrete runs of the adaptive tracker -/

/-- State of the adaptive tracker at real time `r` heading for 0 with step `h`. -/
def stF (r h : ℝ) (d : ℂ) (k a b p m : ℕ) : St ℤ :=
  { time := (r : ℂ), endtime := 0, delta := d, step := h, space := 3, nSucc := k, nConsecSucc := k
    sinceInc := a, sinceDec := b, prec := p, nDec := m }

/-- The example settings with another `min_num_steps`. -/
noncomputable def cfgM (M : ℕ) : Cfg := { cfgE with minNumSteps := M }

/-- The example settings with another `consecutive_successful_steps_before_precision_decrease`. -/
def acN (N : ℕ) : AmpCfg := { acA with stepsForPrecDecrease := N }

theorem easyM_correct (M i q t) :
    correctAt (cfgM M) (easy 0) ((easy 0).crit i t) i q t = (.success, q) := by
  have h : uPred 1 = 0 := uPred_of_pos (le_refl _) (by norm_num)
  simp [correctAt, correct, newtonLoop, easy, cfgM, cfgE, h]

theorem nextDelta_stF {r h : ℝ} (h0 : 0 < h) (hr : h ≤ r) (d k a b p m) :
    nextDelta (stF r h d k a b p m) = ((-h : ℝ) : ℂ) := nextDelta_stE h0 hr 3 d k

theorem adjustSuccess_of (cfg : Cfg) (ac : AmpCfg) (env : Env X) (i : ℕ) (s : St X) (mx : ℝ) (P : ℕ)
    (h : minimizeCost (if s.sinceDec < ac.stepsForPrecDecrease ∨ ac.maxPrecDecreases ≤ s.nDec then
        max (minRequired ac env i) s.prec else minRequired ac env i) (s.step * cfg.failFactor)
      (max (minRequired ac env i) s.prec)
      (if s.sinceInc < cfg.stepsForIncrease then s.step else min (s.step * cfg.successFactor) cfg.maxStep)
      (env.digitsB i) cfg.maxNewton ac.order = (mx, P)) :
    adjustSuccess cfg ac env i s =
      { s with step := mx, prec := P, sinceInc := if s.step < mx ∨ P < s.prec then 0 else s.sinceInc + 1
               nDec := if P < s.prec then s.nDec + 1 else s.nDec
               sinceDec := if P < s.prec then 0 else s.sinceDec + 1 } := by
  unfold adjustSuccess
  dsimp only
  rw [h]

/-- One accepted step of the adaptive tracker on the easy system. -/
theorem ampEasy_pass {r h : ℝ} (M N : ℕ) (h0 : 1 / 100 ≤ h) (h1 : h ≤ 1) (hr : h ≤ r) (d : ℂ) (k a b p m i P : ℕ)
    (hk : k < 100) (hp : p ≤ 300) (hP : Considered (if b < N ∨ 10 ≤ m then max 16 p else 16) (max 16 p) P)
    (hP' : ∀ q, Considered (if b < N ∨ 10 ≤ m then max 16 p else 16) (max 16 p) q → P ≤ q) (hPle : P ≤ 300) (mx : ℝ)
    (hmx : mx = if a < 1 then h else min (h * 2) 1) :
    loopStep (cfgM M) (easy 0) (ampTracker (cfgM M) (acN N) (easy 0)) (.running i (stF r h d k a b p m)) =
      .running (i + 1) (stF (r - h) mx ((-h : ℝ) : ℂ) (k + 1) (if h < mx ∨ P < p then 0 else a + 1)
        (if P < p then 0 else b + 1) P (if P < p then m + 1 else m)) := by
  have hh : 0 < h := by linarith
  have hr0 : 0 < r := by linarith
  have hmx0 : 1 / 100 ≤ mx := by
    rw [hmx]; split_ifs
    · exact h0
    · exact le_min (by linarith) (by norm_num)
  have hmx1 : mx ≤ 1 := by
    rw [hmx]; split_ifs
    · exact h1
    · exact min_le_right _ _
  have e1 : ¬ relSmall (stF r h d k a b p m).time (stF r h d k a b p m).endtime (cfgM M).eps :=
    relSmall_zero hr0 (by norm_num [cfgM, cfgE])
  have e2 : (ampTracker (cfgM M) (acN N) (easy 0)).pre (stF r h d k a b p m) = .success := by
    simp only [ampTracker, ampPre, stF, cfgM, cfgE, acN, acA]
    rw [if_neg (by omega), if_neg (by linarith), if_neg (by omega)]
  have emin : minimizeCost (if b < N ∨ 10 ≤ m then max 16 p else 16) (h * (1 / 2)) (max 16 p) mx 0 2 4 = (mx, P) := by
    refine minimize_small (by linarith) hmx1 P hP hP' ?_
    apply dbl_big
    unfold trackCost
    rw [abs_of_pos (by linarith), div_le_iff₀ (by linarith)]
    have : (P : ℝ) ≤ 300 := by exact_mod_cast hPle
    split_ifs
    · norm_num; linarith
    · norm_num; linarith
  have e3 : (ampTracker (cfgM M) (acN N) (easy 0)).iter i
      { stF r h d k a b p m with delta := nextDelta (stF r h d k a b p m) } =
      (.success, stF r mx ((-h : ℝ) : ℂ) k (if h < mx ∨ P < p then 0 else a + 1)
        (if P < p then 0 else b + 1) P (if P < p then m + 1 else m)) := by
    rw [nextDelta_stF hh hr]
    simp only [ampTracker, ampIter]
    have : (easy 0).predict i (stF r h d k a b p m).space (stF r h d k a b p m).time ((-h : ℝ) : ℂ) =
      .ok 3 := rfl
    rw [this]
    dsimp only
    rw [easyM_correct]
    simp only [reduceCtorEq, or_self, if_false]
    have q1 : minRequired (acN N) (easy 0) i = 16 := rfl
    have q3 : minimizeCost (if b < N ∨ 10 ≤ m then max (minRequired (acN N) (easy 0) i) p else minRequired (acN N) (easy 0) i)
        (h * (1 / 2)) (max (minRequired (acN N) (easy 0) i) p)
        (if a < 1 then h else min (h * 2) 1) 0 2 4 = (mx, P) := by
      rw [q1, ← hmx]; exact emin
    rw [adjustSuccess_of (cfgM M) (acN N) (easy 0) i
      { stF r h d k a b p m with delta := ((-h : ℝ) : ℂ), space := 3 } mx P q3]
    rfl
  simp only [loopStep]
  rw [if_neg e1, if_neg (by rw [e2]; simp), e3]
  dsimp only
  rw [if_neg (by simp [cfgM, cfgE, easy, stF]; norm_num), if_pos rfl]
  simp only [baseSuccess, stF, Complex.ofReal_neg, Complex.ofReal_sub]
  congr 2

theorem grid_min16 (q : ℕ) (h : Considered 16 16 q) : 16 ≤ q := by unfold Considered at h; omega

/-- **C90 fails for the adaptive tracker**: with `min_num_steps` 4 the first step is a quarter of the way, the step
doubles after two successes, and the end is reached in three. -/
theorem C90_refuted : ¬ C90_full := by
  intro H
  have h := (H (cfgM 4) (acN 10) (easy 0) (fun _ x => some x) 1 3 (by norm_num [cfgM, cfgE]) (by norm_num [cfgM, cfgE])
    (by norm_num [cfgM, cfgE]) (by norm_num [cfgM, cfgE]) (by norm_num [cfgM, cfgE]) (by norm_num)).2
  have e : (ampInit (cfgM 4) (acN 10) (fun _ x => some x) true 0 0 1 0 16 3).2 = stF 1 (1 / 4) 0 0 0 0 16 0 := by
    simp [ampInit, initialRefinement, stF, cfgM, cfgE]
  rw [e] at h
  have c16 : Considered 16 16 16 := Or.inl ⟨rfl, le_refl _⟩
  have s1 : loopStep (cfgM 4) (easy 0) (ampTracker (cfgM 4) (acN 10) (easy 0)) (.running 0 (stF 1 (1 / 4) 0 0 0 0 16 0)) =
      .running 1 (stF (3 / 4) (1 / 4) ((-(1 / 4) : ℝ) : ℂ) 1 1 1 16 0) := by
    rw [ampEasy_pass 4 10 (by norm_num) (by norm_num) (by norm_num) 0 0 0 0 16 0 0 16 (by norm_num) (by norm_num)
      (by simpa using c16) (by simpa using grid_min16) (by norm_num) (1 / 4) (by norm_num)]
    congr 2 <;> norm_num
  have s2 : loopStep (cfgM 4) (easy 0) (ampTracker (cfgM 4) (acN 10) (easy 0))
      (.running 1 (stF (3 / 4) (1 / 4) ((-(1 / 4) : ℝ) : ℂ) 1 1 1 16 0)) =
      .running 2 (stF (1 / 2) (1 / 2) ((-(1 / 4) : ℝ) : ℂ) 2 0 2 16 0) := by
    rw [ampEasy_pass 4 10 (by norm_num) (by norm_num) (by norm_num) _ 1 1 1 16 0 1 16 (by norm_num) (by norm_num)
      (by simpa using c16) (by simpa using grid_min16) (by norm_num) (1 / 2) (by norm_num)]
    congr 2 <;> norm_num
  have s3 : loopStep (cfgM 4) (easy 0) (ampTracker (cfgM 4) (acN 10) (easy 0))
      (.running 2 (stF (1 / 2) (1 / 2) ((-(1 / 4) : ℝ) : ℂ) 2 0 2 16 0)) =
      .running 3 (stF 0 (1 / 2) ((-(1 / 2) : ℝ) : ℂ) 3 1 3 16 0) := by
    rw [ampEasy_pass 4 10 (by norm_num) (by norm_num) (by norm_num) _ 2 0 2 16 0 2 16 (by norm_num) (by norm_num)
      (by simpa using c16) (by simpa using grid_min16) (by norm_num) (1 / 2) (by norm_num)]
    congr 2 <;> norm_num
  have r1 : runAt (cfgM 4) (easy 0) (ampTracker (cfgM 4) (acN 10) (easy 0)) (stF 1 (1 / 4) 0 0 0 0 16 0) 4 =
      .done .success (stF 0 (1 / 2) ((-(1 / 2) : ℝ) : ℂ) 3 1 3 16 0) (some 3) := by
    rw [runAt_succ, runAt_succ, runAt_succ, runAt_succ]
    simp only [runAt, Function.iterate_zero, id]
    rw [s1, s2, s3]
    simp [loopStep, relSmall, stF]
  have h4 := h 4 _ _ r1
  simp [cfgM, stF] at h4

/-- A call started at 25 digits: the first accepted step lowers the precision to 20. -/
theorem start25 : ampRun (cfgM 1) (acN 10) (easy 0) (stF 1 (1 / 4) 0 0 0 0 25 0) 1 =
    .running 1 (stF (3 / 4) (1 / 4) ((-(1 / 4) : ℝ) : ℂ) 1 0 0 20 1) := by
  unfold ampRun
  rw [runAt_succ]
  simp only [runAt, Function.iterate_zero, id]
  rw [ampEasy_pass 1 10 (by norm_num) (by norm_num) (by norm_num) 0 0 0 0 25 0 0 20 (by norm_num) (by norm_num)
      (by unfold Considered; norm_num) (by intro q hq; unfold Considered at hq; norm_num at hq; omega) (by norm_num)
      (1 / 4) (by norm_num)]
  congr 2 <;> norm_num

/-- **C92 fails** for a call started at another precision: from 25 digits the first accepted step lowers the precision
to 20, although ten accepted steps are asked for before that. -/
theorem C92_refuted : ¬ C92_full := by
  intro H
  have h := (H (cfgM 1) (acN 10) (easy 0) (fun _ x => some x) true 0 0 1 0 25 3 (by simp [acN, acA])
    (by norm_num [cfgM, cfgE]) (by norm_num [cfgM, cfgE]) (by norm_num)).preceded 0
  have e : (ampInit (cfgM 1) (acN 10) (fun _ x => some x) true 0 0 1 0 25 3).2 = stF 1 (1 / 4) 0 0 0 0 25 0 := by
    simp [ampInit, initialRefinement, stF, cfgM, cfgE]
    norm_num
  rw [e] at h
  have h2 := (h ⟨_, _, rfl, start25, by simp [stF]⟩).1
  simp [acN] at h2

/-- Witness for `C92_partial`, `C93`: a call started at 20 digits which lowers the precision to 16 in its second
step, after one success (as set), the first time it may. -/
example : (20 = 16 ∨ (10 ∣ 20 ∧ 20 ≤ 20)) ∧ (acN 1).maxPrec ≤ 1000 ∧ (cfgM 1).failFactor < 1 ∧ 0 < (cfgM 1).minStep ∧
    ampRun (cfgM 1) (acN 1) (easy 0) (stF 1 (1 / 4) 0 0 0 0 20 0) 2 =
      .running 2 (stF (1 / 2) (1 / 2) ((-(1 / 4) : ℝ) : ℂ) 2 0 0 16 1) := by
  refine ⟨by norm_num, by simp [acN, acA], by norm_num [cfgM, cfgE], by norm_num [cfgM, cfgE], ?_⟩
  have s1 : loopStep (cfgM 1) (easy 0) (ampTracker (cfgM 1) (acN 1) (easy 0)) (.running 0 (stF 1 (1 / 4) 0 0 0 0 20 0)) =
      .running 1 (stF (3 / 4) (1 / 4) ((-(1 / 4) : ℝ) : ℂ) 1 1 1 20 0) := by
    rw [ampEasy_pass 1 1 (by norm_num) (by norm_num) (by norm_num) 0 0 0 0 20 0 0 20 (by norm_num) (by norm_num)
      (by unfold Considered; norm_num) (by intro q hq; unfold Considered at hq; norm_num at hq; omega) (by norm_num)
      (1 / 4) (by norm_num)]
    congr 2 <;> norm_num
  unfold ampRun
  rw [runAt_succ, runAt_succ]
  simp only [runAt, Function.iterate_zero, id]
  rw [s1, ampEasy_pass 1 1 (by norm_num) (by norm_num) (by norm_num) _ 1 1 1 20 0 1 16 (by norm_num) (by norm_num)
      (by unfold Considered; norm_num) (by intro q hq; unfold Considered at hq; norm_num at hq; omega) (by norm_num)
      (1 / 2) (by norm_num)]
  congr 2 <;> norm_num

/-! ### C94 -/

/-- Specification: the digits criteria B and C and the tracking tolerance ask for (at least double precision). -/
def demanded (ac : AmpCfg) (env : Env X) (i : ℕ) : ℕ :=
  max 16 (max ac.digitsTol (max (env.digitsB i) (env.digitsC i)))

/-- **C94 in full**: the precision chosen after an accepted step is at least the one the criteria and the tolerance ask
for, and no higher than this or the current one, whichever is higher (but at least 20 digits are always allowed); unless
no step is possible (1001 digits). -/
def C94_full : Prop :=
  ∀ (cfg : Cfg) (ac : AmpCfg) (env : Env ℤ) (i : ℕ) (s : St ℤ), 0 < s.step → 16 ≤ s.prec →
    demanded ac env i ≤ (adjustSuccess cfg ac env i s).prec ∧
    ((adjustSuccess cfg ac env i s).prec ≤ max 20 (max (demanded ac env i) s.prec) ∨
      (adjustSuccess cfg ac env i s).prec = 1001)

/-- **C94, the part that holds**: at least that precision rounded down to a multiple of ten, and multiple precision if
more than double precision is asked for; and never less than double precision. -/
theorem C94_partial (cfg : Cfg) (ac : AmpCfg) (env : Env X) (i : ℕ) (s : St X) (hd : demanded ac env i ≤ 1000) :
    demanded ac env i / 10 * 10 ≤ (adjustSuccess cfg ac env i s).prec ∧
    (16 < demanded ac env i → 20 ≤ (adjustSuccess cfg ac env i s).prec) ∧
    ((adjustSuccess cfg ac env i s).prec ≤ max 20 (max (demanded ac env i) s.prec) ∨
      (adjustSuccess cfg ac env i s).prec = 1001) ∧
    16 ≤ (adjustSuccess cfg ac env i s).prec := by
  have hdm : minRequired ac env i = demanded ac env i := by unfold minRequired demanded; omega
  unfold adjustSuccess
  dsimp only
  rw [hdm]
  generalize hmp : (if s.sinceDec < ac.stepsForPrecDecrease ∨ ac.maxPrecDecreases ≤ s.nDec then
    max (demanded ac env i) s.prec else demanded ac env i) = a
  have ha : demanded ac env i ≤ a := by rw [← hmp]; split_ifs <;> omega
  have ha2 : a ≤ max (demanded ac env i) s.prec := by rw [← hmp]; split_ifs <;> omega
  generalize (if s.sinceInc < cfg.stepsForIncrease then s.step
    else min (s.step * cfg.successFactor) cfg.maxStep) = mx
  rcases C91_optimal_partial a (max (demanded ac env i) s.prec) (s.step * cfg.failFactor) mx (env.digitsB i)
    cfg.maxNewton ac.order with ⟨⟨c1, -, -⟩, -⟩ | ⟨e, -⟩
  · generalize (minimizeCost a (s.step * cfg.failFactor) (max (demanded ac env i) s.prec) mx (env.digitsB i)
      cfg.maxNewton ac.order).2 = p at c1 ⊢
    unfold Considered at c1
    generalize demanded ac env i = d at *
    omega
  · rw [e]
    dsimp only
    omega

/-- **C94 fails** because of the rounding: 25 digits asked for, 20 used. -/
theorem C94_refuted : ¬ C94_full := by
  intro H
  have h := (H (cfgM 1) (acN 10) { easy 0 with digitsB := fun _ => 25 } 0 (stF 1 (1 / 4) 0 0 0 0 16 0)
    (by norm_num [stF]) (by simp [stF])).1
  have q3 : minimizeCost (if 0 < 10 ∨ 10 ≤ 0 then max 25 16 else 25) (1 / 4 * (1 / 2)) (max 25 16)
      (if 0 < 1 then (1 / 4 : ℝ) else min (1 / 4 * 2) 1) 25 2 4 = (1 / 4, 20) := by
    norm_num
    refine minimize_small (by norm_num) (by norm_num) 20 (by unfold Considered; norm_num)
      (by intro q hq; unfold Considered at hq; norm_num at hq; omega) ?_
    apply dbl_big; norm_num [trackCost]
  rw [adjustSuccess_of (cfgM 1) (acN 10) { easy 0 with digitsB := fun _ => 25 } 0 (stF 1 (1 / 4) 0 0 0 0 16 0) (1 / 4) 20
    q3] at h
  simp [demanded, acN, acA, easy] at h

/-- Witness for `C94_partial`: 35 digits asked for by criterion C. -/
example : demanded (acN 10) { easy 0 with digitsC := fun _ => 35 } 0 = 35 := rfl

end B2.Track
