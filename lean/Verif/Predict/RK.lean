/-
Model of the explicit Runge-Kutta predictor: which methods exist, their advertised orders, the
dispatch in `PredictorMethod`, the `odepredictor` setting, one step (`FullStep`) and the embedded error
estimate (`SetErrorEstimate`).
/repo/core/include/bertini2/trackers/explicit_predictors.hpp
/repo/core/include/bertini2/io/parsing/settings_parsers/tracking.hpp

Simplifications: exact field arithmetic instead of `double`/`mpfr` (the tables are rational in the source
and are cast); the right-hand side (`EvalRHS`, lines 844-901: solve J k = -dH/dt) is an arbitrary partial
function of space and time, `none` standing for a failed LU check.
-/
import Verif.Predict.Tables
import Verif.Track.Newton
import Mathlib.Algebra.BigOperators.Group.Finset.Basic
import Mathlib.Algebra.Module.Defs
import Mathlib.Data.Rat.Cast.Defs

namespace B2.Predict
open B2.Track (Code)

/-- `enum class Predictor`, /repo/core/include/bertini2/trackers/config.hpp lines 55-67. -/
inductive Method
  | constant | euler | heun | rk4 | heunEuler | rkNorsett34 | rkf45 | rkCashKarp45
  | rkDormandPrince56 | rkVerner67
  deriving DecidableEq, Repr

/-- `predict::Order`, explicit_predictors.hpp lines 84-110. -/
def order : Method → Nat
  | .constant => 0
  | .euler => 1
  | .heun => 2
  | .heunEuler => 2
  | .rkNorsett34 => 3
  | .rk4 => 4
  | .rkf45 => 4
  | .rkCashKarp45 => 4
  | .rkDormandPrince56 => 5
  | .rkVerner67 => 6

/-- `predict::HasErrorEstimate`, explicit_predictors.hpp lines 121-149. -/
def hasErrorEstimate : Method → Bool
  | .constant => false
  | .euler => false
  | .heun => false
  | .heunEuler => true
  | .rkNorsett34 => true
  | .rk4 => false
  | .rkf45 => true
  | .rkCashKarp45 => true
  | .rkDormandPrince56 => true
  | .rkVerner67 => true

/-- The `switch` of `ExplicitRKPredictor::PredictorMethod`, explicit_predictors.hpp lines 238-346.
`none` is the `default` branch, which throws `std::runtime_error`. -/
def predictorMethod : Method → Option Table
  | .constant => some constantT
  | .euler => some eulerT
  | .heunEuler => some heunEulerT
  | .rk4 => some rk4T
  | .rkf45 => some rkf45T
  | .rkCashKarp45 => some rkck45T
  | .rkDormandPrince56 => some rkdp56T
  | .rkVerner67 => some rkv67T
  | .heun => none
  | .rkNorsett34 => none

/-- The symbol table of the `odepredictor` setting, settings_parsers/tracking.hpp lines 167-176.
`none` means the value is not in the table. -/
def odePredictor : Int → Option Method
  | -1 => some .constant
  | 0 => some .euler
  | 1 => some .heun
  | 2 => some .rk4
  | 3 => some .heun
  | 4 => some .rkNorsett34
  | 5 => some .rkf45
  | 6 => some .rkCashKarp45
  | 7 => some .rkDormandPrince56
  | 8 => some .rkVerner67
  | _ => none

section Step
variable {K V : Type} [Field K] [AddCommGroup V] [Module K V]
open Finset

/-- The loop over stages `ii = 1 .. s_-1` of `FullStep`, explicit_predictors.hpp lines 713-722.
`n` is the number of stages left, `Kc` the matrix `Kref` as a function from column to vector. -/
def stageLoop (T : Table) (f : V → K → Option V) (x : V) (t δ : K) :
    Nat → Nat → (Nat → V) → Option (Nat → V)
  | 0, _, Kc => some Kc
  | n + 1, ii, Kc =>
    match f (x + δ • ∑ jj ∈ range ii, (T.a ii jj : K) • Kc jj) (t + (T.c ii : K) * δ) with
    | none => none
    | some k => stageLoop T f x t δ n (ii + 1) (Function.update Kc ii k)

/-- `ExplicitRKPredictor::FullStep`, explicit_predictors.hpp lines 685-731.  On success, the new point
together with the stage matrix `K_` (which `SetErrorEstimate` reads afterwards). -/
def fullStep (T : Table) (f : V → K → Option V) (x : V) (t δ : K) :
    Except Code (V × (Nat → V)) :=
  if T.s = 0 then .ok (x, fun _ => 0)
  else
    match f x t with
    | none => .error .matrixSolveFailureFirstPart
    | some k0 =>
      match stageLoop T f x t δ (T.s - 1) 1 (Function.update (fun _ => 0) 0 k0) with
      | none => .error .matrixSolveFailure
      | some Kc => .ok (x + δ • ∑ ii ∈ range T.s, (T.b ii : K) • Kc ii, Kc)

/-- The vector whose norm is the error estimate: `SetErrorEstimate`, explicit_predictors.hpp lines
769-795 (`err = Σ b_minus_bstar(ii) K.col(ii); err *= delta_t`). -/
def errVec (T : Table) (Kc : Nat → V) (δ : K) : V :=
  δ • ∑ ii ∈ range T.s, (T.d ii : K) • Kc ii

end Step
end B2.Predict
