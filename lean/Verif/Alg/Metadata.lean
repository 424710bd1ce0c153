import Verif.Alg.ZeroDim

/-!
# Metadata of solutions and step sizes of a zero-dimensional solve

Code: /repo/core/include/bertini2/nag_algorithms/zero_dim_solve.hpp 109-146 (`SolutionMetaData`), 611-653
(`TrackSinglePathBeforeEG`), 712-776 (`TrackSinglePathDuringEG`); trackers/base_tracker.hpp 404-407, 562,
trackers/fixed_precision_tracker.hpp 450-467, 535-551, trackers/amp_tracker.hpp 455-460 (initial step size).

`Solve` is that of `ZeroDim.lean`; the members treated here are assigned in the two functions whose calls its log records,
so their values are functions of the log.
-/

namespace B2.Alg.Md

variable {d : ℕ}

/-- What tracker, endgame and target system provide when an endgame run has ended, zero_dim_solve.hpp 764-774:
`LatestConditionNumber`, `LatestNormOfStep`, `LatestTime`, `ApproximateError`, the distance of the last two approximations in
user coordinates, `CycleNumber`, the norm of the target system at the endpoint. -/
structure EgData where
  cond : ℝ
  newton : ℝ
  time : ℂ
  acc : ℝ
  accUser : ℝ
  cycle : ℕ
  resid : ℝ

/-- The members of `SolutionMetaData` without initial value, zero_dim_solve.hpp 115-143; `none`: never
assigned. (Such a member of an element of the vector of records is zero, since `resize`, 577, value-initialises its elements; in
a record declared as a local variable it would be indeterminate, except the time, a class with a constructor.) -/
structure Rec where
  pathIndex : Option ℕ
  solIndex : Option ℕ
  cond : Option ℝ
  newton : Option ℝ
  time : Option ℂ
  acc : Option ℝ
  accUser : Option ℝ
  cycle : Option ℕ
  resid : Option ℝ
  isReal : Option Bool
  isFinite : Option Bool
  isSingular : Option Bool

/-- A default constructed record. -/
def Rec.fresh : Rec := ⟨none, none, none, none, none, none, none, none, none, none, none, none⟩

/-- Effect of call number `k` on the records: zero_dim_solve.hpp 620-623 before the endgame, 764-774 after it.
`ComputePostTrackMetadata`, 788-791, assigns none of these members. -/
def record (D : ℕ → EgData) (k : ℕ) (m : ℕ → Rec) : Ev d → ℕ → Rec
  | .before i _ => Function.update m i { m i with pathIndex := some i, solIndex := some i }
  | .endgame i _ => Function.update m i
      { m i with resid := some (D k).resid, time := some (D k).time, cond := some (D k).cond, newton := some (D k).newton,
                 acc := some (D k).acc, accUser := some (D k).accUser, cycle := some (D k).cycle }

/-- The records after the calls of the log; `D k` is what call number `k` provides. -/
def records (D : ℕ → EgData) (log : List (Ev d)) : ℕ → Rec :=
  (log.foldl (fun p ev => (p.1 + 1, record D p.1 p.2 ev)) (0, fun _ => Rec.fresh)).2

/-- The step size of the tracker: `reinitialize_stepsize_`, `current_stepsize_`, the step sizes stored with the boundary
points (`last_used_stepsize`), the number of calls and the step sizes with which the calls started. -/
structure StepSt where
  reinit : Bool
  step : ℝ
  saved : ℕ → ℝ
  k : ℕ
  starts : List ℝ

/-- After construction, base_tracker.hpp 562. -/
def StepSt.init : StepSt := ⟨true, 0, fun _ => 0, 0, []⟩

/-- Effect of a call on the step size.  `ini k` is the initial step size according to the settings at call `k`:
`min(initial_step_size, |t_start - t_end| / min_num_steps)`; `fin k h` is the step size after call `k` if it starts with `h`.
Before the endgame: `TrackPath` initialises the step size if `reinitialize_stepsize_` is set, zero_dim_solve.hpp 634-636.
Endgame: `SetStepSize(last_used_stepsize); ReinitializeInitialStepSize(false)`, zero_dim_solve.hpp 727-728; the flag is
never set again. -/
def StepSt.next (ini : ℕ → ℝ) (fin : ℕ → ℝ → ℝ) (t : StepSt) : Ev d → StepSt
  | .before i _ =>
    let h := if t.reinit then ini t.k else t.step
    { t with step := fin t.k h, saved := Function.update t.saved i (fin t.k h), k := t.k + 1, starts := t.starts ++ [h] }
  | .endgame i _ =>
    { t with reinit := false, step := fin t.k (t.saved i), k := t.k + 1, starts := t.starts ++ [t.saved i] }

/-- After the calls of the log. -/
def steps (ini : ℕ → ℝ) (fin : ℕ → ℝ → ℝ) (log : List (Ev d)) : StepSt := log.foldl (StepSt.next ini fin) .init

end B2.Alg.Md
