/-
Model of the notifications a tracker sends from inside an iteration and around the loop: why a step failed, the
predicted and the corrected point, the start of the call and a singular start point.

On top of the loop of `Loop.lean` and the events of `Events.lean`; numbers are exact.  Left out: `PrecisionChanged`
(amp_tracker.hpp 1308; see `Alg/Recorders.lean`).
-/
import Verif.Track.Events
import Verif.Track.AMP

namespace B2.Track

/-- The notifications of `TrackerIteration`, trackers/events.hpp: `NewStep`, `FirstStepPredictorMatrixSolveFailure`,
`PredictorMatrixSolveFailure`, `PredictorHigherPrecisionNecessary`, `SuccessfulPredict` (with its point),
`CorrectorMatrixSolveFailure`, `CorrectorHigherPrecisionNecessary`, `SuccessfulCorrect` (with its point). -/
inductive Note (X : Type)
  | newStep
  | firstSolve
  | predictSolve
  | predictPrec
  | predicted (q : X)
  | correctSolve
  | correctPrec
  | corrected (p : X)

/-- The notifications of `FixedPrecisionTracker::TrackerIteration`, fixed_precision_tracker.hpp 165-222. -/
noncomputable def fixedNotes {X : Type} [Add X] (cfg : Cfg) (env : Env X) (i : ℕ) (s : St X) : List (Note X) :=
  .newStep ::
    match env.predict i s.space s.time s.delta with
    | .ok q =>
      let r := correctAt cfg env (fun _ _ _ => true) i q (s.time + s.delta)
      .predicted q ::
        if r.1 = .goingToInfinity then []
        else if r.1 ≠ .success then [.correctSolve]
        else [.corrected r.2]
    | _ => [.firstSolve]

/-- The notifications of `AMPTracker::TrackerIteration`, amp_tracker.hpp 621-699. -/
noncomputable def ampNotes {X : Type} [Add X] (cfg : Cfg) (env : Env X) (i : ℕ) (s : St X) : List (Note X) :=
  .newStep ::
    match env.predict i s.space s.time s.delta with
    | .firstFail => [.firstSolve]
    | .solveFail => [.predictSolve]
    | .higherPrec => [.predictPrec]
    | .ok q =>
      let r := correctAt cfg env (env.crit i (s.time + s.delta)) i q (s.time + s.delta)
      .predicted q ::
        if r.1 = .matrixSolveFailure ∨ r.1 = .failedToConverge then [.correctSolve]
        else if r.1 = .higherPrecisionNecessary then [.correctPrec]
        else if r.1 = .goingToInfinity then []
        else [.corrected r.2]

/-- The notifications around the loop: `Initializing` (with the start time, the end time and the start point),
`SingularStartPoint`, and those of the loop. -/
inductive CallNote (X : Type)
  | initializing (t0 t1 : ℂ) (x : X)
  | singular
  | loop (e : Event X)

/-- The notifications of a call of `TrackPath` of the adaptive tracker until the loop has made `n` passes,
base_tracker.hpp 232-286: `Initializing` (amp_tracker.hpp 440), `SingularStartPoint` when the refinement of the start point
gives up (517), and in that case `PostTrackCleanup` at once (base_tracker.hpp 242-246). -/
noncomputable def ampCallLog {X : Type} [Add X] (cfg : Cfg) (ac : AmpCfg) (env : Env X) (refine : ℕ → X → Option X)
    (reinit : Bool) (oldStep : ℝ) (oldDelta t0 t1 : ℂ) (p0 : ℕ) (x0 : X) (n : ℕ) : List (CallNote X) :=
  let a := ampInit cfg ac refine reinit oldStep oldDelta t0 t1 p0 x0
  .initializing t0 t1 x0 ::
    if a.1 ≠ .success then [.singular, .loop (seen .ended a.2)]
    else (log cfg env (ampTracker cfg ac env) a.2 n).map .loop

/-- The code of that call, once it has returned: base_tracker.hpp 241-285. -/
noncomputable def ampCallCode {X : Type} [Add X] (cfg : Cfg) (ac : AmpCfg) (env : Env X) (refine : ℕ → X → Option X)
    (reinit : Bool) (oldStep : ℝ) (oldDelta t0 t1 : ℂ) (p0 : ℕ) (x0 : X) (n : ℕ) : Option Code :=
  let a := ampInit cfg ac refine reinit oldStep oldDelta t0 t1 p0 x0
  if a.1 ≠ .success then some a.1
  else
    match runAt cfg env (ampTracker cfg ac env) a.2 n with
    | .running _ _ => none
    | .done c _ _ => some c

end B2.Track
