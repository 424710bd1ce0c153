import Verif.Track.PropsAMP

/-!
# C100: what a failed step does to step size and precision
-/

namespace B2.Track

variable {X : Type} [Add X]

/-- The precisions in their order: double, 20, 30, …; `up k p` is `k` places above `p`. -/
def up (k p : ℕ) : ℕ := if k = 0 then p else if p = 16 then 10 + 10 * k else p + 10 * k

theorem bump_iter_up (k : ℕ) {p : ℕ} (hp : 16 ≤ p) : bump^[k] p = up k p := by
  induction k with
  | zero => rfl
  | succ k ih =>
    rw [Function.iterate_succ_apply', ih]
    unfold bump up
    rcases Nat.eq_zero_or_pos k with rfl | hk
    · by_cases h : p = 16 <;> simp [h]
    · by_cases h : p = 16
      · simp only [h, if_true, if_neg hk.ne', if_neg (show k + 1 ≠ 0 by omega)]
        rw [if_neg (by omega)]
        ring
      · simp only [h, if_false, if_neg hk.ne', if_neg (show k + 1 ≠ 0 by omega)]
        rw [if_neg (by omega)]
        ring

/-- **C100 (linear solve fails in the predictor)**: the step size stays; from double precision the tracker goes to the lowest
multiple precision, otherwise up by one place for this failure and one for each failure immediately before. -/
theorem C100_matrix (cfg : Cfg) (ac : AmpCfg) (env : Env X) (i : ℕ) (s : St X)
    (h : env.predict i s.space s.time s.delta = .firstFail) :
    (ampIter cfg ac env i s).2.step = s.step ∧
    (s.prec = 16 → (ampIter cfg ac env i s).2.prec = 20) ∧
    (s.prec ≠ 16 → (ampIter cfg ac env i s).2.prec = up (s.nConsecFail + 1) s.prec) := by
  unfold ampIter
  rw [h]
  refine ⟨rfl, fun h16 => ?_, fun h16 => ?_⟩
  · simp [initialMatrixSolveError, h16]
  · simp only [initialMatrixSolveError, up]
    rw [if_neg h16, if_neg (by omega), if_neg h16]
    ring

/-- **C100 (no convergence)**: the step size is multiplied by the failure factor, and the precision is the lowest, from the
current one up, at which the new step size is permitted for the time to go. -/
theorem C100_newton (cfg : Cfg) (ac : AmpCfg) (env : Env X) (i : ℕ) (s : St X) (hs : 0 < s.step)
    (h16 : 16 ≤ s.prec) (hf : 0 < cfg.failFactor)
    (h : env.predict i s.space s.time s.delta = .solveFail ∨ ∃ q, env.predict i s.space s.time s.delta = .ok q ∧
      ((correctAt cfg env (env.crit i (s.time + s.delta)) i q (s.time + s.delta)).1 = .matrixSolveFailure ∨
        (correctAt cfg env (env.crit i (s.time + s.delta)) i q (s.time + s.delta)).1 = .failedToConverge)) :
    let s' := (ampIter cfg ac env i s).2
    s'.step = cfg.failFactor * s.step ∧
    ∃ k, s'.prec = up k s.prec ∧ minStepFor s'.prec ‖s.endtime - s.time‖ ≤ s'.step ∧
      ∀ j < k, s'.step < minStepFor (up j s.prec) ‖s.endtime - s.time‖ := by
  have e : (ampIter cfg ac env i s).2 = newtonConvergenceError cfg s := by
    unfold ampIter
    rcases h with h | ⟨q, h, hc⟩
    · rw [h]
    · rw [h]
      dsimp only
      rw [if_pos hc]
  dsimp only
  rw [e]
  refine ⟨rfl, ?_⟩
  have hex := bump_suffices (mul_pos hf hs) s.prec ‖s.time - s.endtime‖ (norm_nonneg _)
  rw [norm_sub_rev s.endtime s.time]
  refine ⟨Nat.find hex, ?_, ?_, fun j hj => ?_⟩
  · rw [← bump_iter_up _ h16]
    unfold newtonConvergenceError
    dsimp only
    rw [dif_pos hex]
  · have := Nat.find_spec hex
    rw [not_lt] at this
    unfold newtonConvergenceError
    dsimp only
    rw [dif_pos hex]
    exact this
  · have := Nat.find_min hex hj
    rw [not_not, bump_iter_up _ h16] at this
    exact this

/-- **C100 (criterion violated, step too small)**: if the reduced step size is not permitted at the current precision, the
precision goes up as for a failed linear solve, and the step size becomes the mean of the old and the reduced one, but at
least the smallest permitted at the old precision. -/
theorem C100_criterion (cfg : Cfg) (ac : AmpCfg) (env : Env X) (i : ℕ) (s : St X)
    (hsmall : cfg.failFactor * s.step < minStepFor s.prec ‖s.endtime - s.time‖)
    (h : env.predict i s.space s.time s.delta = .higherPrec ∨ ∃ q, env.predict i s.space s.time s.delta = .ok q ∧
      (correctAt cfg env (env.crit i (s.time + s.delta)) i q (s.time + s.delta)).1 = .higherPrecisionNecessary) :
    let s' := (ampIter cfg ac env i s).2
    s'.step = max ((s.step + cfg.failFactor * s.step) / 2) (minStepFor s.prec ‖s.endtime - s.time‖) ∧
    (s.prec = 16 → s'.prec = 20) ∧ (s.prec ≠ 16 → s'.prec = up (s.nConsecFail + 1) s.prec) := by
  have e : (ampIter cfg ac env i s).2 = ampCriterionError cfg ac env i s := by
    unfold ampIter
    rcases h with h | ⟨q, h, hc⟩
    · rw [h]
    · rw [h]
      dsimp only
      rw [if_neg (by rw [hc]; simp), if_pos hc]
  dsimp only
  rw [e]
  rw [norm_sub_rev s.endtime s.time] at hsmall ⊢
  unfold ampCriterionError
  dsimp only
  rw [if_pos (by rwa [mul_comm])]
  refine ⟨?_, fun h16 => ?_, fun h16 => ?_⟩
  · dsimp only
    congr 1
    ring
  · simp [h16]
  · simp only [up]
    rw [if_neg h16, if_neg (by omega), if_neg h16]
    ring

/-- Witnesses: from double precision at time 1 towards 0 with step `10^-13`, an environment whose predictor fails in the
given way. -/
example : (ampIter cfgA acA { env45 with predict := fun _ _ _ _ => .firstFail } 0 (stA 16 1)).2.prec = 20 :=
  (C100_matrix cfgA acA _ 0 (stA 16 1) rfl).2.1 rfl

example : (ampIter cfgA acA { env45 with predict := fun _ _ _ _ => .higherPrec } 0
    (stA 16 ((10 : ℝ) ^ (-13 : ℤ)))).2.prec = 20 := by
  refine (C100_criterion cfgA acA _ 0 (stA 16 ((10 : ℝ) ^ (-13 : ℤ))) ?_ (Or.inl rfl)).2.1 rfl
  rw [norm_sub_rev]
  rw [show minStepFor (stA 16 ((10 : ℝ) ^ (-13 : ℤ))).prec
      ‖(stA 16 ((10 : ℝ) ^ (-13 : ℤ))).time - (stA 16 ((10 : ℝ) ^ (-13 : ℤ))).endtime‖ =
      (10 : ℝ) ^ (-13 : ℤ) from minStepFor_16]
  simp only [cfgA, cfgE, stA]
  norm_num

example : ∃ k, (ampIter cfgA acA { env45 with predict := fun _ _ _ _ => .solveFail } 0
    (stA 16 ((10 : ℝ) ^ (-13 : ℤ)))).2.prec = up (k + 1) 16 := by
  obtain ⟨h1, k, h2, h3, h4⟩ := C100_newton cfgA acA { env45 with predict := fun _ _ _ _ => .solveFail } 0
    (stA 16 ((10 : ℝ) ^ (-13 : ℤ))) (by simp only [stA]; positivity) le_rfl (by norm_num [cfgA, cfgE])
    (Or.inl rfl)
  cases k with
  | succ k => exact ⟨k, h2⟩
  | zero =>
    exfalso
    rw [h2, h1, norm_sub_rev] at h3
    have e : minStepFor (up 0 (stA 16 ((10 : ℝ) ^ (-13 : ℤ))).prec)
      ‖(stA 16 ((10 : ℝ) ^ (-13 : ℤ))).time - (stA 16 ((10 : ℝ) ^ (-13 : ℤ))).endtime‖ =
      (10 : ℝ) ^ (-13 : ℤ) := minStepFor_16
    rw [e] at h3
    simp only [cfgA, cfgE, stA] at h3
    norm_num at h3

end B2.Track
