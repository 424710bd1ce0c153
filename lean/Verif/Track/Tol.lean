/-
Model of the tolerances of a tracker, /repo/core/include/bertini2/trackers/base_tracker.hpp lines 172-219, 345-358, 411-419, 574-583,
and of `TolToDigits`, /repo/core/include/bertini2/num_traits.hpp lines 66-70.

Tolerances are exact reals and the logarithm is exact.  Predictors are numbered; `order` gives their orders.
-/
import Mathlib.Analysis.SpecialFunctions.Log.Base

namespace B2.Track.Tol

/-- `TolToDigits`, num_traits.hpp 67-70: `ceil(-log10(tol))` converted to `unsigned`.  The conversion of a negative number is undefined
(`none`); minus zero is zero.  Numbers too large for `unsigned` do not come up for positive doubles. -/
noncomputable def tolToDigits (tol : ℝ) : Option ℕ :=
  if ⌈-Real.logb 10 tol⌉ < 0 then none else some ⌈-Real.logb 10 tol⌉.toNat

/-- What a tracker keeps, base_tracker.hpp 573-583.  `digits` is `none` when its value is undefined. -/
structure St where
  predictor : ℕ
  order : ℕ
  tol : ℝ
  digits : Option ℕ
  trunc : ℝ

/-- A new tracker, base_tracker.hpp 156-161 and 573-583; `m` is `DefaultPredictor()`. -/
noncomputable def St.new (order : ℕ → ℕ) (m : ℕ) : St := ⟨m, order m, 1 / 10 ^ 5, some 5, 10 ^ 5⟩

/-- `SetPredictor`, base_tracker.hpp 344-348. -/
def setPredictor (order : ℕ → ℕ) (m : ℕ) (s : St) : St := { s with predictor := m, order := order m }

open Classical in
/-- `SetTrackingTolerance`, base_tracker.hpp 202-209.  The Boolean says whether it throws. -/
noncomputable def setTol (t : ℝ) (s : St) : Bool × St :=
  if t ≤ 0 then (true, s) else (false, { s with tol := t, digits := tolToDigits t })

open Classical in
/-- `SetInfiniteTruncationTolerance`, base_tracker.hpp 212-218. -/
noncomputable def setTrunc (t : ℝ) (s : St) : Bool × St :=
  if t ≤ 0 then (true, s) else (false, { s with trunc := t })

/-- `Setup`, base_tracker.hpp 172-190 (without the settings for steps and Newton's method, which have no checks): predictor, tolerance,
truncation threshold, in that order. -/
noncomputable def setup (order : ℕ → ℕ) (m : ℕ) (t q : ℝ) (s : St) : Bool × St :=
  match setTol t (setPredictor order m s) with
  | (true, s') => (true, s')
  | (false, s') => (false, { s' with trunc := q })

/-- Calls. -/
inductive Op
  | predictor (m : ℕ)
  | tol (t : ℝ)
  | trunc (t : ℝ)
  | setup (m : ℕ) (t q : ℝ)

/-- One call. -/
noncomputable def Op.run (order : ℕ → ℕ) : Op → St → Bool × St
  | .predictor m, s => (false, setPredictor order m s)
  | .tol t, s => setTol t s
  | .trunc t, s => setTrunc t s
  | .setup m t q, s => Tol.setup order m t q s

/-- Calls one after the other; the caller catches the exceptions. -/
noncomputable def runOps (order : ℕ → ℕ) (s : St) : List Op → St
  | [] => s
  | o :: os => runOps order (o.run order s).2 os

/-- The assertion at the start of an adaptive track, amp_tracker.hpp 432-438, when precision is preserved: `p` digits of the start
point. -/
def startOk (s : St) (p : ℕ) : Prop := -Real.logb 10 s.tol ≤ p

end B2.Track.Tol
