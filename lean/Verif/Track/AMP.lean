/-
Model of the adaptive-precision tracker, /repo/core/include/bertini2/trackers/amp_tracker.hpp.

Step sizes are exact reals, precisions natural numbers (digits); conversions between precisions do not
change values.
-/
import Verif.Track.Loop
import Mathlib.Analysis.SpecialFunctions.Log.Base

namespace B2.Track

open Classical

/-- `AdaptiveMultiplePrecisionConfig` (config.hpp 153-221) as far as the loop reads it, with the
predictor order and the digit counts derived from the tolerances (`digits_tracking_tolerance_`,
`digits_final_`). -/
structure AmpCfg where
  maxPrec : ℕ
  stepsForPrecDecrease : ℕ
  maxPrecDecreases : ℕ
  order : ℕ
  digitsTol : ℕ
  digitsFinal : ℕ

/-- `MinTimeForCurrentPrecision` / `MinStepSizeForPrecision`, amp_tracker.hpp 67-90. -/
noncomputable def minStepFor (p : ℕ) (togo : ℝ) : ℝ :=
  let t := (10 : ℝ) ^ (3 - (p : ℤ)) * togo
  if p = 16 ∧ t < (10 : ℝ) ^ (-150 : ℤ) then (10 : ℝ) ^ (-150 : ℤ) else t

/-- `ArithmeticCost`, amp_tracker.hpp 106-112. -/
noncomputable def arithmeticCost (p : ℕ) : ℝ :=
  if p = 16 then 1 else 10.35 + 0.13 * p

/-- The exponent `-( digits_B - precision )*num_newton_iterations/(predictor_order+1)` computed in
32-bit `unsigned` arithmetic, amp_tracker.hpp line 135. -/
def critBExponent (p digitsB n order : ℕ) : ℕ :=
  let diff := (digitsB + 2 ^ 32 - p % 2 ^ 32) % 2 ^ 32
  let neg := (2 ^ 32 - diff) % 2 ^ 32
  (neg * n % 2 ^ 32) / (order + 1)

/-- `StepsizeSatisfyingCriterionB`, amp_tracker.hpp 130-136. -/
noncomputable def stepsizeB (p digitsB n order : ℕ) : ℝ := (10 : ℝ) ^ critBExponent p digitsB n order

/-- `MinDigitsForLogOfStepsize`, amp_tracker.hpp 149-153; `convert_to<unsigned>` of a negative number
is taken to be 0. -/
noncomputable def minDigitsForLog (l togo : ℝ) : ℕ :=
  (⌈l⌉ + ⌈Real.logb 10 |togo|⌉ + 3).toNat

/-- `MinDigitsForStepsizeInterval`, amp_tracker.hpp 165-170. -/
noncomputable def minDigitsForInterval (a b togo : ℝ) : ℕ :=
  max (minDigitsForLog (-Real.logb 10 a) togo) (minDigitsForLog (-Real.logb 10 b) togo)

/-- Largest finite double, the initial `min_cost` of `MinimizeTrackingCost` (amp_tracker.hpp line 200). -/
noncomputable def dblMax : ℝ := 2 ^ 1024 - 2 ^ 971

/-- One call of the lambda `minimizer_routine`, amp_tracker.hpp 205-219.  State: least cost so far,
its step size and its precision.  (A zero candidate would have infinite cost.) -/
noncomputable def minimizer (maxStep : ℝ) (digitsB n order : ℕ) (st : ℝ × ℝ × ℕ) (p : ℕ) :
    ℝ × ℝ × ℕ :=
  let cand := min (stepsizeB p digitsB n order) maxStep
  let cost := arithmeticCost p / |cand|
  if cand ≠ 0 ∧ cost < st.1 then (cost, cand, p) else st

/-- The precisions tried, in order, amp_tracker.hpp 221-238. -/
def candidates (minPrec maxPrec : ℕ) : List ℕ :=
  let lowest := if minPrec < 20 then 20 else minPrec / 10 * 10
  let highest := if maxPrec < 20 then 20 else maxPrec / 10 * 10
  (if minPrec ≤ 16 then [16] else []) ++
    (List.range ((highest + 10 - lowest) / 10)).map (fun k => lowest + 10 * k)

/-- `MinimizeTrackingCost`, amp_tracker.hpp 193-239.  Returns step size and precision. -/
noncomputable def minimizeCost (minPrec : ℕ) (minStep : ℝ) (maxPrec : ℕ) (maxStep : ℝ)
    (digitsB n order : ℕ) : ℝ × ℕ :=
  ((candidates minPrec maxPrec).foldl (minimizer maxStep digitsB n order)
    (dblMax, minStep, 1000 + 1)).2

/-- Next precision up: amp_tracker.hpp 523-526 and 820-825. -/
def bump (p : ℕ) : ℕ := if p = 16 then 20 else p + 10

/-- `MinRequiredPrecision_BCTol`, amp_tracker.hpp 997-1003. -/
def minRequired {X : Type} (ac : AmpCfg) (env : Env X) (i : ℕ) : ℕ :=
  max (max (env.digitsB i) (env.digitsC i)) (max ac.digitsTol 16)

/-- `AdjustAMPStepSuccess`, amp_tracker.hpp 744-787, with `UpdatePrecisionAndStepsize` 722-727 (which
sets step size and precision, without refinement, hence always returns `Success`). -/
noncomputable def adjustSuccess {X : Type} (cfg : Cfg) (ac : AmpCfg) (env : Env X) (i : ℕ)
    (s : St X) : St X :=
  let minStep := s.step * cfg.failFactor
  let minP := minRequired ac env i
  let maxP := max minP s.prec
  let maxStep := if s.sinceInc < cfg.stepsForIncrease then s.step
    else min (s.step * cfg.successFactor) cfg.maxStep
  let minP' := if s.sinceDec < ac.stepsForPrecDecrease ∨ ac.maxPrecDecreases ≤ s.nDec then
    max minP s.prec else minP
  let r := minimizeCost minP' minStep maxP maxStep (env.digitsB i) cfg.maxNewton ac.order
  { s with
    step := r.1, prec := r.2
    sinceInc := if s.step < r.1 ∨ r.2 < s.prec then 0 else s.sinceInc + 1
    nDec := if r.2 < s.prec then s.nDec + 1 else s.nDec
    sinceDec := if r.2 < s.prec then 0 else s.sinceDec + 1 }

/-- `InitialMatrixSolveError`, amp_tracker.hpp 791-801. -/
def initialMatrixSolveError {X : Type} (s : St X) : St X :=
  { s with prec := if s.prec = 16 then 20 else s.prec + (1 + s.nConsecFail) * 10 }

/-- `NewtonConvergenceError`, amp_tracker.hpp 814-828.  The `while` loop raises the precision until
the new step is representable; it is the least number of bumps that suffices.  If no number suffices
(only possible for a step size that is not positive, see `bump_suffices`) the C++ loop does not end;
the value in that branch is irrelevant. -/
noncomputable def newtonConvergenceError {X : Type} (cfg : Cfg) (s : St X) : St X :=
  let st := cfg.failFactor * s.step
  let fits := fun k => ¬ st < minStepFor (bump^[k] s.prec) ‖s.time - s.endtime‖
  { s with step := st
           prec := if h : ∃ k, fits k then bump^[Nat.find h] s.prec else s.prec }

/-- `AMPCriterionError`, amp_tracker.hpp 846-891.  The locals `a` and `max_precision` are computed
there but not used. -/
noncomputable def ampCriterionError {X : Type} (cfg : Cfg) (ac : AmpCfg) (env : Env X) (i : ℕ)
    (s : St X) : St X :=
  let minNext := if s.prec = 16 then 20 else s.prec + (1 + s.nConsecFail) * 10
  let minStep := minStepFor s.prec ‖s.time - s.endtime‖
  let maxStep := s.step * cfg.failFactor
  if maxStep < minStep then
    { s with prec := minNext, step := max (s.step * (1 + cfg.failFactor) / 2) minStep }
  else
    let minP := max (max minNext (env.digitsB i))
      (max (env.digitsC i)
        (max (minDigitsForInterval minStep maxStep ‖s.time - s.endtime‖) ac.digitsFinal))
    let r := minimizeCost minP minStep ac.maxPrec maxStep (env.digitsB i) cfg.maxNewton ac.order
    { s with step := r.1, prec := r.2 }

/-- `AMPTracker::TrackerIteration`, amp_tracker.hpp 621-699. -/
noncomputable def ampIter {X : Type} [Add X] (cfg : Cfg) (ac : AmpCfg) (env : Env X) (i : ℕ)
    (s : St X) : Code × St X :=
  match env.predict i s.space s.time s.delta with
  | .firstFail => (Predicted.firstFail (X := X) |>.code, initialMatrixSolveError s)
  | .solveFail => (Predicted.solveFail (X := X) |>.code, newtonConvergenceError cfg s)
  | .higherPrec => (Predicted.higherPrec (X := X) |>.code, ampCriterionError cfg ac env i s)
  | .ok q =>
    let r := correctAt cfg env (env.crit i (s.time + s.delta)) i q (s.time + s.delta)
    if r.1 = .matrixSolveFailure ∨ r.1 = .failedToConverge then
      (r.1, newtonConvergenceError cfg s)
    else if r.1 = .higherPrecisionNecessary then (r.1, ampCriterionError cfg ac env i s)
    else if r.1 = .goingToInfinity then (r.1, s)
    else (.success, adjustSuccess cfg ac env i { s with space := r.2 })

/-- `PreIterationCheck`, amp_tracker.hpp 539-549. -/
noncomputable def ampPre {X : Type} (cfg : Cfg) (ac : AmpCfg) (s : St X) : Code :=
  if cfg.maxNumSteps ≤ s.nSucc then .maxNumStepsTaken
  else if s.step < cfg.minStep then .minStepSizeReached
  else if ac.maxPrec < s.prec then .maxPrecisionReached
  else .success

/-- `AMPTracker`; `OnStepFail` is amp_tracker.hpp 1029-1035. -/
noncomputable def ampTracker {X : Type} [Add X] (cfg : Cfg) (ac : AmpCfg) (env : Env X) :
    Tracker X where
  pre := ampPre cfg ac
  iter := ampIter cfg ac env
  onFail := fun s => { s with sinceDec := 0, sinceInc := 0 }

/-- `InitialRefinement`, amp_tracker.hpp 509-529, the `do ... while` part: the refinement at the
current precision has failed.  `refine p x` is the outcome of `RefineStoredPoint` at precision `p`
(`none` = no success).  Returns the code, the precision and the stored point. -/
def refineLoop {X : Type} (maxPrec : ℕ) (refine : ℕ → X → Option X) (p : ℕ) (x : X) :
    Code × ℕ × X :=
  if maxPrec < p then (.singularStartPoint, p, x)
  else
    match refine (bump p) x with
    | some y => (.success, bump p, y)
    | none => refineLoop maxPrec refine (bump p) x
termination_by maxPrec + 1 - p
decreasing_by unfold bump; split <;> omega

/-- `InitialRefinement`, amp_tracker.hpp 509-529. -/
def initialRefinement {X : Type} (maxPrec : ℕ) (refine : ℕ → X → Option X) (p : ℕ) (x : X) :
    Code × ℕ × X :=
  match refine p x with
  | some y => (.success, p, y)
  | none => refineLoop maxPrec refine p x

/-- `TrackerLoopInitialization`, amp_tracker.hpp 427-488 (assertions on precision not modelled): the
code returned and the state the loop starts from. -/
noncomputable def ampInit {X : Type} (cfg : Cfg) (ac : AmpCfg) (refine : ℕ → X → Option X)
    (reinit : Bool) (oldStep : ℝ) (oldDelta : ℂ) (t0 t1 : ℂ) (p0 : ℕ) (x0 : X) : Code × St X :=
  let r := initialRefinement ac.maxPrec refine p0 x0
  (r.1, { time := t0, endtime := t1, delta := oldDelta, space := r.2.2, prec := r.2.1
          step := if reinit then min cfg.initialStep (‖t0 - t1‖ / cfg.minNumSteps) else oldStep })

end B2.Track
