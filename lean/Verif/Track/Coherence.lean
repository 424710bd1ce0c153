import Mathlib.Data.List.Basic
import Mathlib.Data.Rat.Floor
import Mathlib.Tactic.FieldSimp
import Mathlib.Tactic.Positivity
import Mathlib.Tactic.Linarith

/-!
# The precision of everything an adaptive precision tracker holds

Model of the precision bookkeeping of `AMPTracker`
(/repo/core/include/bertini2/trackers/amp_tracker.hpp). Numbers are represented by the precision
they carry; only the end time also carries its value, since it is copied and rounded repeatedly.
`X` is the type of exact complex values, `R p` rounding to `p` digits.

Boost's rules for variable precision numbers: assignment copies the precision of the source, a
result of arithmetic has the largest precision among its operands, a number made from a `double`,
an integer or a literal has the default precision. Double precision storage (`Vec<dbl>`) has no
precision to keep; only the length of the stored point is recorded. The outcomes of predictor, corrector and of the AMP formulas are
arbitrary (oracles).
-/

namespace B2.Track.Coh

/-- A multiple precision number: value and precision. -/
structure MP (X : Type) where
  val : X
  prec : ℕ

/-- `x.precision(p)`. -/
def MP.setPrec {X : Type} (R : ℕ → X → X) (p : ℕ) (x : MP X) : MP X := ⟨R p x.val, p⟩

/-- The state: the global default precision, the precision of the system, and the members of
`Tracker` / `AMPTracker` (base_tracker.hpp 700-760, amp_tracker.hpp 1620-1640): `cur`, `prev`,
`initial` are `current_precision_`, `previous_precision_`, `initial_precision_`; `space`, `tent`,
`temp` the precisions of the entries of the multiple precision `current_space_`,
`tentative_space_`, `temporary_space_`, and `dsize` the length of the double precision
`current_space_`; `endt`, `endHi` are `endtime_`,
`endtime_highest_precision_`; `pred`, `corr` the precisions of predictor and corrector, `tab` the
precision the predictor's Butcher table was filled with. -/
structure Tk (X : Type) where
  dflt : ℕ
  sys : ℕ
  cur : ℕ
  prev : ℕ
  initial : ℕ
  pred : ℕ
  tab : ℕ
  corr : ℕ
  space : List ℕ
  dsize : ℕ
  tent : List ℕ
  temp : List ℕ
  time : ℕ
  dt : ℕ
  step : ℕ
  endt : MP X
  endHi : MP X
  nvars : ℕ
  preserve : Bool

variable {X : Type}

/-- `AMPTracker(sys)`: `current_precision_(DefaultPrecision())`, and likewise for the members made
by default construction, for the predictor (explicit_predictors.hpp 212) and the corrector
(newton_corrector.hpp 49); the system keeps its precision; `preserve_precision_ = false`.
amp_tracker.hpp 363-366, 1620. (`previous_precision_` and `initial_precision_` are not initialised
by the code; the model takes the default.) -/
def make (zero : X) (dflt sys nvars : ℕ) : Tk X where
  dflt := dflt
  sys := sys
  cur := dflt
  prev := dflt
  initial := dflt
  pred := dflt
  tab := dflt
  corr := dflt
  space := []
  dsize := 0
  tent := []
  temp := []
  time := dflt
  dt := dflt
  step := dflt
  endt := ⟨zero, dflt⟩
  endHi := ⟨zero, dflt⟩
  nvars := nvars
  preserve := false

/-- `AdjustCurrentPrecision`, amp_tracker.hpp 1508-1513. -/
def adjustCurrent (p : ℕ) (s : Tk X) : Tk X := { s with prev := s.cur, cur := p, dflt := p }

/-- `AdjustInternalsPrecision`, amp_tracker.hpp 1533-1547. `predictor_->ChangePrecision` fills the
Butcher table anew by `PredictorMethod`, with `static_cast<mpfr_float>` of the rational entries, so
at the default precision (explicit_predictors.hpp 394-412, 931-968). -/
def adjustInternals (R : ℕ → X → X) (p : ℕ) (s : Tk X) : Tk X :=
  { s with
    sys := p, pred := p, tab := s.dflt, corr := p,
    endt := s.endHi.setPrec R p,
    step := p, dt := p, time := p,
    space := s.space.map fun _ => p }

/-- `AdjustTemporariesPrecision`, amp_tracker.hpp 1556-1566. -/
def adjustTemporaries (p : ℕ) (s : Tk X) : Tk X :=
  { s with tent := List.replicate s.nvars p, temp := List.replicate s.nvars p }

/-- `MultipleToDouble(source_point)`, amp_tracker.hpp 1388-1416. -/
def multToDouble (R : ℕ → X → X) (src : List ℕ) (s : Tk X) : Tk X :=
  let s := adjustCurrent 16 s
  { s with sys := 16, dsize := src.length, endt := s.endt.setPrec R 16 }

/-- `DoubleToMultiple(new_precision)`, amp_tracker.hpp 1430-1459, 1515-1522: the entries `mpfr_complex(dbl)` get
the default precision. -/
def doubleToMult (R : ℕ → X → X) (p : ℕ) (s : Tk X) : Tk X :=
  let s := adjustCurrent p s
  adjustTemporaries p (adjustInternals R p { s with space := List.replicate s.dsize s.dflt })

/-- `MultipleToMultiple(new_precision, source_point)`, amp_tracker.hpp 1474-1502, 1524-1530. -/
def multToMult (R : ℕ → X → X) (p : ℕ) (src : List ℕ) (s : Tk X) : Tk X :=
  adjustTemporaries p (adjustInternals R p { adjustCurrent p s with space := src })

/-- `ChangePrecision` without the refinement, amp_tracker.hpp 1303-1340. -/
def changePrec (R : ℕ → X → X) (p : ℕ) (s : Tk X) : Tk X :=
  if p = s.cur then s
  else if p = 16 ∧ 16 < s.cur then multToDouble R s.space s
  else if 16 < p ∧ s.cur = 16 then doubleToMult R p s
  else multToMult R p s.space s

/-- `RefineStoredPoint`, amp_tracker.hpp 1164-1180, with outcome `ok`. In multiple precision it is
`RefineImpl` at the precision of the current time, which changes the precision to that of the time,
gives the result that precision, and runs the corrector: the result has the largest precision of
start point, time, system and corrector. -/
def refineStored (R : ℕ → X → X) (ok : Bool) (s : Tk X) : Tk X :=
  if s.cur = 16 then s
  else
    let s := changePrec R s.time s
    let temp := List.replicate s.nvars
      (max (s.space.foldr max 0) (max s.time (max s.sys s.corr)))
    if ok then { s with temp := temp, space := temp } else { s with temp := temp }

/-- One call of `TrackPath` up to the first refinement: the precisions of start time, the end time,
the precisions of the coordinates of the start point, whether the step size is reinitialised, and
whether the initial step size or the segment length is the smaller. -/
structure Call (X : Type) where
  startTime : ℕ
  endTime : MP X
  point : List ℕ
  reinit : Bool
  segment : Bool

/-- `Precision(start_point(0))`. -/
def Call.first (c : Call X) : ℕ := c.point.headD 0

/-- `TrackerLoopInitialization` before `InitialRefinement`, amp_tracker.hpp 427-475. The initial
step size is converted at `current_precision_`, still that of the previous path. -/
def begin (R : ℕ → X → X) (c : Call X) (s : Tk X) : Tk X :=
  let p := c.first
  let s := { s with
    initial := p, dflt := p, time := p,
    endHi := c.endTime.setPrec R p,
    endt := c.endTime.setPrec R p,
    step := if c.reinit then
        (if c.segment then max c.startTime c.endTime.prec else s.cur)
      else p }
  let s := if p = 16 then multToDouble R c.point s else multToMult R p c.point s
  changePrec R p (changePrec R p s)

/-- `InitialRefinement`, amp_tracker.hpp 509-530: refine, and as long as that fails raise the
precision and refine again. `oks` are the outcomes after each raise; the `maximum_precision` test
only ends the loop earlier. -/
def initialRefine (R : ℕ → X → X) (ok : Bool) (oks : List Bool) (s : Tk X) : Tk X :=
  let s := refineStored R ok s
  if ok then s
  else oks.foldl (fun s ok =>
    refineStored R ok (changePrec R (if s.cur = 16 then 20 else s.cur + 10) s)) s

/-- Where the next step size comes from. -/
inductive StepSrc
  /-- `next_stepsize_ = current_stepsize_`, amp_tracker.hpp 793. -/
  | same
  /-- the current step size times a configured factor converted at `current_precision_`,
  747-748, 818, 858, 865 -/
  | scaled
  /-- `max_step_size` converted at `current_precision_`, 748 -/
  | config
  /-- `StepsizeSatisfyingCriterionB`: a power of `mpfr_float(10)`, 130-136 -/
  | critB
  /-- `MinStepSizeForPrecision`: a power of `mpfr_float(10)` times the time to go, 67-75 -/
  | minimal

/-- Precision of the next step size. -/
def StepSrc.prec (s : Tk X) : StepSrc → ℕ
  | .same => s.step
  | .scaled => max s.step s.cur
  | .config => s.cur
  | .critB => s.dflt
  | .minimal => max s.dflt (max s.time s.endt.prec)

/-- What happens in one pass of the loop of `TrackPath`: whether the step is cut to the time that is
left, how far the iteration gets, and the next precision and step size (`none` if the corrector
says `GoingToInfinity`: nothing is updated). -/
structure Pass where
  cut : Bool
  predicted : Bool
  corrected : Bool
  accepted : Bool
  next : Option (ℕ × StepSrc)

/-- Precision of the predicted point: it is computed from the current point, the time, `delta_t_`, the
system's derivatives and the Butcher table (explicit_predictors.hpp 680-760). -/
def Tk.predicted (s : Tk X) : ℕ :=
  max (s.space.foldr max 0) (max s.time (max s.dt (max s.sys (max s.pred s.tab))))

/-- Precision of the corrected point: it is computed from the predicted point, `current_time +
delta_t`, and the Newton steps (newton_corrector.hpp 270-330). -/
def Tk.corrected (s : Tk X) : ℕ :=
  max (s.temp.foldr max 0) (max s.time (max s.dt (max s.sys s.corr)))

/-- One pass of the loop: `delta_t_`, base_tracker.hpp 262-267; `TrackerIteration`, amp_tracker.hpp
604-696, with `UpdatePrecisionAndStepsize`, 721-725; `IncrementBaseCountersSuccess`
(`current_time_ += delta_t_`) if the step is accepted. -/
def pass (R : ℕ → X → X) (s : Tk X) (q : Pass) : Tk X :=
  let togo := max s.endt.prec s.time
  let s := { s with dt := if q.cut then togo else max s.step togo }
  let s := if s.cur = 16 then s
    else
      let s := if q.predicted then
          { s with temp := List.replicate s.nvars s.predicted }
        else s
      let s := if q.corrected then
          { s with tent := List.replicate s.nvars s.corrected }
        else s
      if q.accepted then { s with space := s.tent } else s
  let s := match q.next with
    | none => s
    | some (p, src) => changePrec R p { s with step := src.prec s }
  if q.accepted then { s with time := max s.time s.dt } else s

/-- The coordinates returned by `CurrentPoint` (amp_tracker.hpp 398-412) and `CopyFinalSolution`
(571-592), as precisions. -/
def currentPoint (s : Tk X) : List ℕ :=
  if s.cur = 16 then List.replicate s.nvars s.dflt else s.space

/-- `PostTrackCleanup`, amp_tracker.hpp 557-562. -/
def cleanup (R : ℕ → X → X) (s : Tk X) : Tk X :=
  if s.preserve then changePrec R s.initial s else s

/-- `TrackPath` (base_tracker.hpp 232-290) until the moment the loop is left: initialisation and any
number of passes. -/
def track (R : ℕ → X → X) (c : Call X) (ok : Bool) (oks : List Bool) (passes : List Pass)
    (s : Tk X) : Tk X :=
  passes.foldl (pass R) (initialRefine R ok oks (begin R c s))

/-- Everything `TrackPath` does to the state, on every way out (base_tracker.hpp 242-289). -/
def trackPath (R : ℕ → X → X) (c : Call X) (ok : Bool) (oks : List Bool) (passes : List Pass)
    (s : Tk X) : Tk X :=
  cleanup R (track R c ok oks passes s)

/-- The assertion, at the beginning of each conversion, that the stored point has as many coordinates
as the system has variables (amp_tracker.hpp 1391, 1433, 1477). Nothing is converted if the precision
stays the same. -/
def storedOk (p : ℕ) (s : Tk X) : Bool :=
  p = s.cur || (if s.cur = 16 then s.dsize else s.space.length) = s.nvars

/-- `Refine` with a point whose coordinates have the precisions `pts` at a time of precision `tp`
(base_tracker.hpp 303-310, `RefineImpl`, amp_tracker.hpp 1199-1227). `none`: the assertion that the
point has the precision of the time fails, or the one in `storedOk`, or `System::SetVariables` throws
because the precision of the point is not that of the system (system.hpp 972-973). -/
def refine (R : ℕ → X → X) (tp : ℕ) (pts : List ℕ) (s : Tk X) : Option (Tk X) :=
  if pts.all (· = tp) && storedOk tp s then
    let s := changePrec R tp s
    if s.sys = tp then some s else none
  else none

end B2.Track.Coh
