/-
Model of the Newton corrector: `NewtonCorrector::Correct`
(/repo/core/include/bertini2/trackers/newton_corrector.hpp, 141-318) and of the result codes
(/repo/core/include/bertini2/common/config.hpp, 45-65).
-/
import Mathlib.Algebra.Group.Defs
import Mathlib.Order.Defs.LinearOrder
import Mathlib.Tactic.Common

namespace B2.Track

/-- `SuccessCode`, /repo/core/include/bertini2/common/config.hpp lines 45-65. -/
inductive Code
  | neverStarted | success | higherPrecisionNecessary | reduceStepSize | goingToInfinity
  | failedToConverge | matrixSolveFailure | matrixSolveFailureFirstPart | maxNumStepsTaken
  | maxPrecisionReached | minStepSizeReached | failure | singularStartPoint
  | externallyTerminated | minTrackTimeReached | securityMaxNormReached | cycleNumTooHigh
  deriving DecidableEq, Repr

/-- `min_num_newton_iterations-1` on a 32-bit `unsigned`: for `0` it wraps around to `2^32-1`.
newton_corrector.hpp lines 165, 224, 303. -/
def uPred (m : Nat) : Nat := (m + (2 ^ 32 - 1)) % 2 ^ 32

/-- What one Newton solve at a given point produces: `EvalIterationStep`, newton_corrector.hpp
lines 341-362.  `none` stands for `MatrixSolveFailure` (the LU check failed), `some d` for a solved
step `d`.  The linear algebra and the evaluation of the system are not modelled here: the solve is an
arbitrary function of the point. -/
abbrev Solve (X : Type) := X → Option X

/-- Parameters of a call to `Correct`.  `norm` is the infinity norm of a step (`lpNorm<Infinity>`);
`crit ii step next` is the conjunction of AMP criteria B and C evaluated after iteration `ii`
(newton_corrector.hpp lines 229-233 and 306-310); the fixed-precision overload (lines 141-173) has no such test, which is
`crit = fun _ _ _ => true`. -/
structure NewtonArgs (X R : Type) where
  solve : Solve X
  norm : X → R
  tol : R
  minIts : Nat
  maxIts : Nat
  crit : Nat → X → X → Bool

/-- The `for` loop of `Correct`, newton_corrector.hpp lines 156-171 (fixed precision), 214-236 and
285-315 (adaptive).  `fuel` is the number of iterations left (`max - ii`), `ii` the loop counter and
`z` the current value of `next_space`.  Returns the code together with the final `next_space` and the
number of solves attempted. -/
def newtonLoop {X R : Type} [Add X] [LT R] [DecidableLT R] (a : NewtonArgs X R) :
    Nat → Nat → X → Code × X × Nat
  | 0, ii, z => (.failedToConverge, z, ii)
  | fuel + 1, ii, z =>
    match a.solve z with
    | none => (.matrixSolveFailure, z, ii + 1)
    | some d =>
      if a.norm d < a.tol ∧ uPred a.minIts ≤ ii then (.success, z + d, ii + 1)
      else if a.crit ii d (z + d) then newtonLoop a fuel (ii + 1) (z + d)
      else (.higherPrecisionNecessary, z + d, ii + 1)

/-- `NewtonCorrector::Correct`, newton_corrector.hpp lines 141-173 / 198-239 / 269-318: start the loop
at `next_space = current_space`, counter 0. -/
def correct {X R : Type} [Add X] [LT R] [DecidableLT R] (a : NewtonArgs X R) (z : X) :
    Code × X × Nat :=
  newtonLoop a a.maxIts 0 z

end B2.Track
