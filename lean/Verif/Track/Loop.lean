/-
Model of the tracking loop shared by all trackers, `Tracker::TrackPath`
(/repo/core/include/bertini2/trackers/base_tracker.hpp, 232-286), and of the fixed-precision trackers
(/repo/core/include/bertini2/trackers/fixed_precision_tracker.hpp).

Numbers are exact: times are complex numbers and step sizes real numbers; rounding is not modelled.
-/
import Verif.Track.Newton
import Mathlib.Analysis.Complex.Norm

namespace B2.Track

open Classical

/-- Mutable state of a tracker: base_tracker.hpp 560-640 (`current_time_`, `endtime_`, `delta_t_`,
`current_stepsize_`, `current_space_`, the step counters) together with the additional counters and the
precision of the adaptive tracker (amp_tracker.hpp 1615-1647).  The fixed-precision trackers do not
touch the adaptive fields.  Temporaries (`temporary_space_`, `tentative_space_`), the condition-number
estimates and the observers are left out: nothing in the loop reads them. -/
structure St (X : Type) where
  time : ℂ
  endtime : ℂ
  delta : ℂ
  step : ℝ
  space : X
  nSucc : ℕ := 0
  nConsecSucc : ℕ := 0
  nFail : ℕ := 0
  nConsecFail : ℕ := 0
  prec : ℕ := 16
  sinceInc : ℕ := 0
  sinceDec : ℕ := 0
  nDec : ℕ := 0

/-- What a call to the predictor can produce: a point, or one of the three failure codes
(explicit_predictors.hpp 685-731, 844-901 and 238-346). -/
inductive Predicted (X : Type)
  | ok (q : X)
  | firstFail
  | solveFail
  | higherPrec

/-- The `SuccessCode` of a failed prediction. -/
def Predicted.code {X : Type} : Predicted X → Code
  | .ok _ => .success
  | .firstFail => .matrixSolveFailureFirstPart
  | .solveFail => .matrixSolveFailure
  | .higherPrec => .higherPrecisionNecessary

/-- The behaviour of the tracked system as the tracker sees it, one entry per loop iteration (so it may
depend on everything not modelled, including precision and the random vectors used in norm estimates):
the predictor's outcome, the Newton solves at a given time, the AMP criteria, the digits demanded by
criteria B and C (amp_tracker.hpp 918-955), and the norm of the dehomogenized point. -/
structure Env (X : Type) where
  predict : ℕ → X → ℂ → ℂ → Predicted X
  solve : ℕ → ℂ → Solve X
  norm : X → ℝ
  crit : ℕ → ℂ → ℕ → X → X → Bool
  digitsB : ℕ → ℕ
  digitsC : ℕ → ℕ
  size : X → ℝ

/-- Settings: `SteppingConfig` (config.hpp 75-92), `NewtonConfig` (95-99), the tracking tolerance and
the truncation threshold and flag (base_tracker.hpp). -/
structure Cfg where
  initialStep : ℝ
  maxStep : ℝ
  minStep : ℝ
  successFactor : ℝ
  failFactor : ℝ
  stepsForIncrease : ℕ
  minNumSteps : ℕ
  maxNumSteps : ℕ
  minNewton : ℕ
  maxNewton : ℕ
  tol : ℝ
  eps : ℝ
  truncate : Bool
  threshold : ℝ

/-- The corrector call of iteration `i`, predicted point `q`, time `t`: the wrappers
fixed_precision_tracker.hpp 328-339 and amp_tracker.hpp 1123-1149 around `NewtonCorrector::Correct`.
`crit` is constantly true for fixed precision. -/
noncomputable def correctAt {X : Type} [Add X] (cfg : Cfg) (env : Env X)
    (crit : ℕ → X → X → Bool) (i : ℕ) (q : X) (t : ℂ) : Code × X :=
  let r := correct (X := X) (R := ℝ)
    { solve := env.solve i t, norm := env.norm, tol := cfg.tol, minIts := cfg.minNewton,
      maxIts := cfg.maxNewton, crit := crit } q
  (r.1, r.2.1)

/-- `IsSymmRelDiffSmall`, eigen_extensions.hpp 369-377.  The divisions by `abs(a)` and `abs(b)` are
IEEE divisions: a nonzero number over zero is infinite, hence not small. -/
def relSmall (a b : ℂ) (e : ℝ) : Prop :=
  a = b ∨ (a ≠ 0 ∧ ‖a - b‖ / ‖a‖ ≤ e) ∨ (b ≠ 0 ∧ ‖a - b‖ / ‖b‖ ≤ e)

/-- The parts of the loop that a concrete tracker overrides: `PreIterationCheck`,
`TrackerIteration`, the extra work of `OnStepFail`. -/
structure Tracker (X : Type) where
  pre : St X → Code
  iter : ℕ → St X → Code × St X
  onFail : St X → St X

/-- Progress of a call to `TrackPath`: either the loop is about to start iteration `i`, or the call
has returned with a code, the tracker state and, if it was written, `solution_at_endtime`. -/
inductive Run (X : Type)
  | running (i : ℕ) (s : St X)
  | done (c : Code) (s : St X) (out : Option X)

/-- The tracker state of a run. -/
def Run.st {X : Type} : Run X → St X
  | .running _ s => s
  | .done _ s _ => s

/-- base_tracker.hpp 254-258: the next `delta_t_`. -/
noncomputable def nextDelta {X : Type} (s : St X) : ℂ :=
  if ‖s.endtime - s.time‖ < |s.step| then s.endtime - s.time
  else (s.step : ℂ) * (s.endtime - s.time) / (‖s.endtime - s.time‖ : ℂ)

/-- `IncrementBaseCountersSuccess`, base_tracker.hpp 519-525. -/
noncomputable def baseSuccess {X : Type} (s : St X) : St X :=
  { s with nSucc := s.nSucc + 1, nConsecSucc := s.nConsecSucc + 1, time := s.time + s.delta,
           nConsecFail := 0 }

/-- `IncrementBaseCountersFail`, base_tracker.hpp 536-541. -/
def baseFail {X : Type} (s : St X) : St X :=
  { s with nConsecSucc := 0, nFail := s.nFail + 1, nConsecFail := s.nConsecFail + 1 }

/-- One pass through the `while` of `TrackPath`, base_tracker.hpp 246-280, including leaving it
(282-285).  `PostTrackCleanup` only notifies observers, or (AMP with precision preservation) rounds
the stored data, and is not modelled. -/
noncomputable def loopStep {X : Type} (cfg : Cfg) (env : Env X) (T : Tracker X) : Run X → Run X
  | .done c s o => .done c s o
  | .running i s =>
    if relSmall s.time s.endtime cfg.eps then .done .success s (some s.space)
    else if T.pre s ≠ .success then .done (T.pre s) s none
    else
      let r := T.iter i { s with delta := nextDelta s }
      if cfg.truncate = true ∧ cfg.threshold < env.size r.2.space then
        .done .goingToInfinity r.2 none
      else if r.1 = .success then .running (i + 1) (baseSuccess r.2)
      else .running (i + 1) (T.onFail (baseFail r.2))

/-- The state of the call after `n` passes, starting from the state `s0` left by
`TrackerLoopInitialization`. -/
noncomputable def runAt {X : Type} (cfg : Cfg) (env : Env X) (T : Tracker X) (s0 : St X) (n : ℕ) :
    Run X :=
  (loopStep cfg env T)^[n] (.running 0 s0)

/-! ### Fixed precision -/

/-- `TrackerLoopInitialization` of the double and multiple precision trackers,
fixed_precision_tracker.hpp 451-467 and 513-552 (the precision checks of the latter are not modelled).
`reinit` is `reinitialize_stepsize_`; when it is off the previous step size is kept. -/
noncomputable def fixedInit {X : Type} (cfg : Cfg) (reinit : Bool) (oldStep : ℝ) (oldDelta : ℂ)
    (t0 t1 : ℂ) (x0 : X) : St X :=
  { time := t0, endtime := t1, delta := oldDelta, space := x0
    step := if reinit then min cfg.initialStep (‖t0 - t1‖ / cfg.minNumSteps) else oldStep }

/-- `PreIterationCheck`, fixed_precision_tracker.hpp 110-118. -/
noncomputable def fixedPre {X : Type} (cfg : Cfg) (s : St X) : Code :=
  if cfg.maxNumSteps ≤ s.nSucc then .maxNumStepsTaken
  else if s.step < cfg.minStep then .minStepSizeReached
  else .success

/-- `TrackerIteration`, fixed_precision_tracker.hpp 165-222 (with `UpdateStepsize` 240-244). -/
noncomputable def fixedIter {X : Type} [Add X] (cfg : Cfg) (env : Env X) (i : ℕ) (s : St X) :
    Code × St X :=
  match env.predict i s.space s.time s.delta with
  | .ok q =>
    let r := correctAt cfg env (fun _ _ _ => true) i q (s.time + s.delta)
    if r.1 = .goingToInfinity then (r.1, s)
    else if r.1 ≠ .success then (r.1, { s with step := cfg.failFactor * s.step })
    else (.success, { s with space := r.2 })
  | o => (o.code, { s with step := cfg.failFactor * s.step })

/-- `FixedPrecisionTracker`; `OnStepFail` 272-277 additionally resets one counter. -/
noncomputable def fixedTracker {X : Type} [Add X] (cfg : Cfg) (env : Env X) : Tracker X where
  pre := fixedPre cfg
  iter := fixedIter cfg env
  onFail := fun s => { s with sinceInc := 0 }

end B2.Track
