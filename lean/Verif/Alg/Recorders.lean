/-
Model of the recorders of precision changes, /repo/core/include/bertini2/trackers/observers.hpp lines 46-165, of the
events by which the adaptive tracker reports changes of precision, and of the bookkeeping of the zero-dimensional solve
that turns the records into metadata, /repo/core/include/bertini2/nag_algorithms/zero_dim_solve.hpp lines 608-653 and
710-758.

Not modelled: the undefined behaviour of a recorder that removes itself while the list of observers is traversed (C62);
here both recorders receive the event, which is what an implementation with in-place erasure does for these two (C62_raw
with `A = B = []`).  `T` is the type of times.
-/
import Mathlib.Data.List.Basic

namespace B2.Alg.Rec

/-- `PrecisionChanged`, trackers/events.hpp lines 140-172: previous and next precision, and the tracker's time. -/
structure Change (T : Type) where
  prev : ℕ
  next : ℕ
  time : T

/-- One call of `TrackPath`: the precision of the start point, and the later calls of `ChangePrecision`, each with the
requested precision and the time of the tracker. -/
structure Seg (T : Type) where
  start : ℕ
  calls : List (ℕ × T)

/-- The events of a sequence of `ChangePrecision` calls at current precision `p`, amp_tracker.hpp lines 1304-1308: a call
with the current precision does nothing, any other announces the change. -/
def emit {T : Type} (p : ℕ) : List (ℕ × T) → List (Change T)
  | [] => []
  | (q, t) :: r => if q = p then emit p r else ⟨p, q, t⟩ :: emit q r

/-- The events of one `TrackPath`.  `TrackerLoopInitialization`, amp_tracker.hpp lines 440-472, moves to the precision of
the start point with `MultipleToDouble`/`MultipleToMultiple`, which send no event; the two calls of `ChangePrecision`
that follow are then without effect.  No tracker ever sends `TrackingStarted`. -/
def Seg.events {T : Type} (s : Seg T) : List (Change T) := emit s.start s.calls

/-- Fields of the two recorders of the solver: `precision_increased_`, `time_of_first_increase_` of
`FirstPrecisionRecorder` and whether it is registered at the tracker; `max_precision_` of `MinMaxPrecisionRecorder`. -/
structure Recs (T : Type) where
  increased : Bool
  time : T
  on : Bool
  maxp : ℕ

/-- Both `Observe` functions, observers.hpp lines 53-74 and 117-133, on one `PrecisionChanged`. -/
def observe {T : Type} (r : Recs T) (c : Change T) : Recs T :=
  let r1 : Recs T :=
    if r.on = true ∧ c.next > c.prev then { r with increased := true, time := c.time, on := false } else r
  { r1 with maxp := if c.next > r1.maxp then c.next else r1.maxp }

/-- Fields of `SolutionMetaData`, zero_dim_solve.hpp lines 119-121. -/
structure Md (T : Type) where
  changed : Bool
  time : T
  maxp : ℕ

/-- A run on one path: before the endgame (one call of `TrackPath`) or in the endgame (any number of them). -/
inductive Run (T : Type)
  | before (i : ℕ) (s : Seg T)
  | during (i : ℕ) (l : List (Seg T))

/-- The path of a run. -/
def Run.idx {T : Type} : Run T → ℕ
  | .before i _ => i
  | .during i _ => i

/-- The events of a run. -/
def Run.events {T : Type} : Run T → List (Change T)
  | .before _ s => s.events
  | .during _ l => l.flatMap Seg.events

/-- Recorders and metadata. -/
structure S (T : Type) where
  recs : Recs T
  md : ℕ → Md T

/-- The recording parts of `TrackSinglePathBeforeEG`, zero_dim_solve.hpp lines 612-650.  The `else` of line 645 governs
line 646 only. -/
def before {T : Type} (s : S T) (i : ℕ) (seg : Seg T) : S T :=
  let r := seg.events.foldl observe { s.recs with on := true }
  let m := s.md i
  let m1 : Md T := if r.increased then { m with changed := true, time := r.time } else m
  let r1 : Recs T := if r.increased then r else { r with on := false }
  ⟨r1, fun j => if j = i then { m1 with maxp := max m1.maxp r1.maxp } else s.md j⟩

/-- The recording parts of `TrackSinglePathDuringEG`, zero_dim_solve.hpp lines 715-758. -/
def during {T : Type} (s : S T) (i : ℕ) (l : List (Seg T)) : S T :=
  let m := s.md i
  let r := (l.flatMap Seg.events).foldl observe (if m.changed then s.recs else { s.recs with on := true })
  let m1 : Md T := if m.changed then m else if r.increased then { m with changed := true, time := r.time } else m
  let r1 : Recs T := { r with on := false }
  ⟨r1, fun j => if j = i then { m1 with maxp := max m1.maxp r1.maxp } else s.md j⟩

/-- One run. -/
def step {T : Type} (s : S T) : Run T → S T
  | .before i seg => before s i seg
  | .during i l => during s i l

/-- A new solver: `precision_increased_` has no initialiser, so its value `b` is arbitrary; `max_precision_` starts at 0
(observers.hpp lines 103-106, 161-162); the metadata of zero_dim_solve.hpp lines 119-121. -/
def init {T : Type} (b : Bool) (t0 : T) : S T := ⟨⟨b, t0, false, 0⟩, fun _ => ⟨false, t0, 0⟩⟩

/-- A history of runs on a new solver, in the order in which they happen. -/
def solve {T : Type} (b : Bool) (t0 : T) (h : List (Run T)) : S T := h.foldl step (init b t0)

end B2.Alg.Rec
