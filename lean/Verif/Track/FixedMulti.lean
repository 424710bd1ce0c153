import Mathlib.Data.List.Basic
import Mathlib.Tactic.Linarith

/-!
# The precision of everything a fixed multiple precision tracker holds

Model of the precision bookkeeping of `MultiplePrecisionTracker`
(/repo/core/include/bertini2/trackers/fixed_precision_tracker.hpp 60-340, 478-560) inside
`Tracker::TrackPath` (base_tracker.hpp 232-290). Numbers are represented by the precision they
carry; values, and with them the outcomes of predictor, corrector and of the comparisons, are left
open.

Boost's rules for variable precision numbers: assignment copies the precision of the source, the
result of an operation has the largest precision among its operands, a number made from a `double`
or a rational has the default precision.
-/

namespace B2.Track.Fix

/-- The state: the global default precision `dflt`, the precision `sys` of the tracked system (of
its variables, path variable and straight line program), `precision_` of the tracker, the precision
`tab` at which the predictor's Butcher table was filled, and the precisions of the members
`current_space_`, `tentative_space_`, `temporary_space_`, `current_time_`, `endtime_`, `delta_t_`,
`current_stepsize_` (base_tracker.hpp 700-760). `pred` is `current_precision_` of the predictor, and
`jx0`, `jxt`, `jt` are the precisions of the first entries of its `dh_dx_0_`, `dh_dx_temp_`,
`dh_dt_temp_` (explicit_predictors.hpp 1025-1040). `reinit` is `reinitialize_stepsize_`. `slp` is
the evaluation method of the system (system.hpp 65-82), `asserts` whether the program was compiled
with assertions. -/
structure FT where
  dflt : ℕ
  sys : ℕ
  prec : ℕ
  tab : ℕ
  pred : ℕ
  jx0 : ℕ
  jxt : ℕ
  jt : ℕ
  space : List ℕ
  tent : List ℕ
  temp : List ℕ
  time : ℕ
  endt : ℕ
  dt : ℕ
  step : ℕ
  nvars : ℕ
  reinit : Bool
  slp : Bool
  asserts : Bool

/-- `MultiplePrecisionTracker(sys)`: `precision_(DefaultPrecision())`, the other members made by
default construction, the predictor made by `Predictor(predict::DefaultPredictor())`.
fixed_precision_tracker.hpp 492-493, base_tracker.hpp 156-161, explicit_predictors.hpp 212. -/
def make (dflt sys nvars : ℕ) (slp asserts : Bool) : FT where
  dflt := dflt
  sys := sys
  prec := dflt
  tab := dflt
  pred := dflt
  jx0 := dflt
  jxt := dflt
  jt := dflt
  space := []
  tent := []
  temp := []
  time := dflt
  endt := dflt
  dt := dflt
  step := dflt
  nvars := nvars
  reinit := true
  slp := slp
  asserts := asserts

/-- What a user does between construction and tracking: `DefaultPrecision(p)`;
`tracker.SetPredictor(m)`, which fills the table by `static_cast<mpfr_float>` of rational entries,
so at the default precision, and leaves the predictor's own precision as it is
(explicit_predictors.hpp 234-347, 931-968); `system.precision(p)`;
`tracker.SetStepSize(h)` and `tracker.ReinitializeInitialStepSize(b)` (base_tracker.hpp 393-407). -/
inductive Prep
  | dflt (p : ℕ)
  | predictor
  | system (p : ℕ)
  | stepSize (p : ℕ)
  | reinit (b : Bool)

/-- One such call. -/
def Prep.act (s : FT) : Prep → FT
  | .dflt p => { s with dflt := p }
  | .predictor => { s with tab := s.dflt }
  | .system p => { s with sys := p }
  | .stepSize p => { s with step := p }
  | .reinit b => { s with reinit := b }

/-- One call of `TrackPath`: the precisions of start time, end time and of the coordinates of the
start point, and whether the segment length divided by `min_num_steps` is smaller than the initial
step size. -/
structure Call where
  startTime : ℕ
  endTime : ℕ
  point : List ℕ
  segment : Bool

/-- `TrackPath` up to the loop: the size check of base_tracker.hpp 237-238, then
`TrackerLoopInitialization`, fixed_precision_tracker.hpp 510-545. `none`: an exception. -/
def begin (c : Call) (s : FT) : Option FT :=
  if c.point.length ≠ s.nvars then none
  else if c.point.headD 0 ≠ s.dflt then none
  else if c.point.headD 0 ≠ s.prec then none
  else if s.dflt ≠ s.prec then none
  else some { s with
    time := c.startTime, endt := c.endTime, space := c.point,
    step := if s.reinit then
        (if c.segment then max c.startTime c.endTime else s.dflt)
      else s.step }

/-- The checks made when the system is evaluated at a point and a time. `SetVariables`
(system.hpp 964-1000): length, and the precision of the first coordinate; a function tree then
sets each variable, with an assertion on its precision (variable.cpp 50-59).
`SetPathVariable` (system.hpp 1015-1032): the same assertion; a straight line program accepts times
of its own precision or of 16 digits (straight_line_program.hpp 534-543). An exception and a failed
assertion are not distinguished. -/
def evalOk (s : FT) (x : List ℕ) (t : ℕ) : Bool :=
  x.length == s.nvars && x.headD 0 == s.sys &&
  (!s.asserts || (t == s.sys && (s.slp || x.all (· == s.sys)))) &&
  (!s.slp || t == 16 || t == s.sys)

/-- `pick i`: precision of entry `i` of the solution of a linear system whose data were computed from
numbers of the given precisions. `first k`: precision of the first entry of the Jacobian (`k = 0`),
of its decomposition (`1`), of the time derivative (`2`). Which of the precisions it is depends on
the sparsity of the system and is left open; that it is one of them is Boost's rule. -/
structure Mix where
  pick : ℕ → List ℕ → ℕ
  mem : ∀ i l, l ≠ [] → pick i l ∈ l
  first : ℕ → List ℕ → ℕ
  first_mem : ∀ k l, l ≠ [] → first k l ∈ l

/-- A vector `x + h·k`, where `k` solves a linear system set up by evaluating at `y`, `t`. -/
def Mix.move (m : Mix) (s : FT) (x : List ℕ) (h : ℕ) (y : List ℕ) (t : ℕ) : List ℕ :=
  x.mapIdx fun i p => max p (max h (m.pick i (y ++ [t, s.sys])))

/-- How a pass of the loop ends. -/
inductive Result
  /-- a matrix solve of the predictor fails in the first stage / in a later one -/
  | predictor (later : Bool)
  /-- the corrector fails, says `GoingToInfinity`, or succeeds after at least one iteration -/
  | corrector
  | infinity
  | success
deriving DecidableEq

/-- What happens in a pass of the loop: whether the step is cut to the time that is left, the number
of stages of the predictor after the first, the number of Newton iterations (for a success: after the
first), and the result. -/
structure Pass where
  cut : Bool
  stages : ℕ
  newton : ℕ
  result : Result

/-- `next_stepsize_ = RT(step_size_fail_factor)*current_stepsize_; UpdateStepsize()`,
fixed_precision_tracker.hpp 186-189, 212-213. -/
def shrink (s : FT) : FT := { s with step := max s.dflt s.step }

/-- The assertions of `PrecisionSanityCheck`, explicit_predictors.hpp 414-439. -/
def sane (s : FT) : Bool :=
  !s.asserts || (s.pred == s.dflt && s.jt == s.pred && s.jx0 == s.pred && s.jxt == s.pred &&
    s.tab == s.pred)

/-- The first stage, `EvalRHS(…, 0)` up to the check of the matrix, explicit_predictors.hpp 844-874,
with its assertions. (`K_` was just filled with zeros at the default precision, 705.) -/
def stage0 (m : Mix) (s : FT) : Option FT :=
  if sane s && (!s.asserts || (s.space.headD 0 == s.pred && s.time == s.pred)) &&
      evalOk s s.space s.time then
    let y := s.space ++ [s.time, s.sys]
    if !s.asserts || (m.first 0 y == s.pred && m.first 1 y == s.pred) then
      some { s with jx0 := m.first 0 y }
    else none
  else none

/-- The later stages of `FullStep`, explicit_predictors.hpp 712-724, 881-900: evaluation at
`current_space + delta_t*temp`, `current_time + c(ii)*delta_t`. `y`, `t` are the last point and time
at which the system was evaluated; they are returned with the state. -/
def stages (m : Mix) : ℕ → List ℕ → ℕ → FT → Option (FT × List ℕ × ℕ)
  | 0, y, t, s => some (s, y, t)
  | n + 1, y, t, s =>
    let y' := m.move s s.space (max s.tab s.dt) y t
    let t' := max s.time (max s.tab s.dt)
    if sane s && evalOk s y' t' then
      stages m n y' t' { s with
        jxt := m.first 0 (y' ++ [t', s.sys]), jt := m.first 2 (y' ++ [t', s.sys]) }
    else none

/-- Newton iterations, newton_corrector.hpp 141-171. A failed matrix solve leaves the iterate as it
was; the model moves it. -/
def newton (m : Mix) (s : FT) (t : ℕ) : ℕ → List ℕ → Option (List ℕ)
  | 0, x => some x
  | n + 1, x =>
    if evalOk s x t then newton m s t n (m.move s x 0 x t) else none

/-- The corrector and the end of `TrackerIteration`, fixed_precision_tracker.hpp 194-226, after the
predictor has evaluated last at `y`, `t`; and `current_time_ += delta_t_` on success
(base_tracker.hpp 519-525). -/
def correct (m : Mix) (o : Pass) (y : List ℕ) (t : ℕ) (s : FT) : Option FT :=
  let pred := m.move s s.space (max s.tab s.dt) y t
  (newton m s (max s.time s.dt)
      (if o.result = .success then o.newton + 1 else o.newton) pred).map fun corr =>
    match o.result with
    | .success => { s with
        temp := pred, tent := corr, space := corr, time := max s.time s.dt }
    | .infinity => { s with temp := pred, tent := corr }
    | _ => shrink { s with temp := pred, tent := corr }

/-- `TrackerIteration`, fixed_precision_tracker.hpp 162-226. -/
def iteration (m : Mix) (o : Pass) (s : FT) : Option FT :=
  (stage0 m s).bind fun s =>
    if o.result = .predictor false then some (shrink s)
    else
      (stages m o.stages s.space s.time
        { s with jt := m.first 2 (s.space ++ [s.time, s.sys]) }).bind fun r =>
        if o.result = .predictor true then some (shrink r.1) else correct m o r.2.1 r.2.2 r.1

/-- `delta_t_` of a pass, base_tracker.hpp 259-263. -/
def nextDt (o : Pass) (s : FT) : ℕ :=
  if o.cut then max s.endt s.time else max s.step (max s.endt s.time)

/-- One pass of the loop of `TrackPath`, base_tracker.hpp 250-280. -/
def pass (m : Mix) (o : Pass) (s : FT) : Option FT :=
  iteration m o { s with dt := nextDt o s }

/-- Any number of passes. -/
def passes (m : Mix) : List Pass → FT → Option FT
  | [], s => some s
  | o :: os, s => (pass m o s).bind (passes m os)

/-- A call of `TrackPath` up to the end of the loop; `current_space_` is what `CurrentPoint()` and,
on success, `CopyFinalSolution` give (fixed_precision_tracker.hpp 86-89, 136-152). -/
def track (m : Mix) (c : Call) (os : List Pass) (s : FT) : Option FT :=
  (begin c s).bind (passes m os)

end B2.Track.Fix
