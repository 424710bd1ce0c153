/-
Model of the notifications a tracker sends during `TrackPath` and of the observer that collects the path,
`AMPPathAccumulator` (/repo/core/include/bertini2/trackers/observers.hpp 192-223).

On top of the loop of `Loop.lean`; numbers are exact.  Left out: the notifications from inside `TrackerIteration` other
than `NewStep` (predictions, corrections, changes of precision), and those of the initialisation.
-/
import Verif.Track.Loop

namespace B2.Track

/-- The notifications of the loop, trackers/events.hpp: `NewStep`, `SuccessfulStep`, `FailedStep`,
`InfinitePathTruncation`, `TrackingEnded`. -/
inductive EvKind
  | newStep
  | success
  | fail
  | truncated
  | ended
  deriving DecidableEq

/-- A notification, with what an observer sees of the tracker at that moment: `CurrentTime` and `CurrentPoint`
(base_tracker.hpp 654-657, amp_tracker.hpp 398-412, fixed_precision_tracker.hpp 86-91). -/
structure Event (X : Type) where
  kind : EvKind
  time : ℂ
  point : X

/-- What an observer sees of a tracker in state `s`. -/
def seen {X : Type} (k : EvKind) (s : St X) : Event X := ⟨k, s.time, s.space⟩

open Classical in
/-- The notifications of one pass, base_tracker.hpp 246-285: `NewStep` at the beginning of `TrackerIteration`
(amp_tracker.hpp 630, fixed_precision_tracker.hpp 171); `OnInfiniteTruncation` (1039-1042; 277-280); `OnStepSuccess`,
after the counters and the time are updated (1020-1024; 259-263); `OnStepFail` (1029-1035; 268-273); `PostTrackCleanup`
(557-562; 129-132) on every way out. -/
noncomputable def notes {X : Type} (cfg : Cfg) (env : Env X) (T : Tracker X) : Run X → List (Event X)
  | .done _ _ _ => []
  | .running i s =>
    if relSmall s.time s.endtime cfg.eps then [seen .ended s]
    else if T.pre s ≠ .success then [seen .ended s]
    else
      let s1 := { s with delta := nextDelta s }
      let r := T.iter i s1
      seen .newStep s1 ::
        if cfg.truncate = true ∧ cfg.threshold < env.size r.2.space then [seen .truncated r.2, seen .ended r.2]
        else if r.1 = .success then [seen .success (baseSuccess r.2)]
        else [seen .fail (T.onFail (baseFail r.2))]

/-- The notifications of the first `n` passes. -/
noncomputable def log {X : Type} (cfg : Cfg) (env : Env X) (T : Tracker X) (s0 : St X) : ℕ → List (Event X)
  | 0 => []
  | n + 1 => log cfg env T s0 n ++ notes cfg env T (runAt cfg env T s0 n)

/-- `AMPPathAccumulator::Observe` with the default event `SuccessfulStep`, observers.hpp 202-209. -/
def observePath {X : Type} (path : List X) (e : Event X) : List X :=
  match e.kind with
  | .success => path ++ [e.point]
  | _ => path

/-- `Path()` after the accumulator, holding `path`, has seen the notifications `es`; nothing ever clears it
(observers.hpp 212-222). -/
def accumulate {X : Type} (path : List X) (es : List (Event X)) : List X := es.foldl observePath path

end B2.Track
