/-
Model of the numbers a tracker reports about itself: `LatestConditionNumber`, `LatestErrorEstimate`,
`LatestNormOfStep` (/repo/core/include/bertini2/trackers/base_tracker.hpp 606-638), copied into the
metadata of a solution at nag_algorithms/zero_dim_solve.hpp 767-768, and of the frequency with which
the condition number is estimated.

The norms are values of an arbitrary type `R`, given from outside for each factorisation of a
Jacobian; `mul` is the multiplication of `NumErrorT`, with whatever rounding. The fields of the
tracker have no initial value: `none` stands for memory that nothing was written to.
-/
import Mathlib.Data.List.Basic

namespace B2.Track.Stat

/-- Norm of a Jacobian, and norm of the solution of the system with that Jacobian (from its
factorisation) and a random right hand side: explicit_predictors.hpp 740-746,
newton_corrector.hpp 300-302. -/
structure Est (R : Type) where
  jac : R
  inv : R

/-- `condition_number_estimate_`, `error_estimate_`, `norm_J_`, `norm_J_inverse_`, `norm_delta_z_`,
`size_proportion_` and `num_steps_since_last_condition_number_computation_`,
base_tracker.hpp 597, 609-614. -/
structure Stats (R : Type) where
  cond : Option R := none
  err : Option R := none
  jac : Option R := none
  inv : Option R := none
  dz : Option R := none
  prop : Option R := none
  count : ℕ := 0

/-- What `SetNormsCond` (explicit_predictors.hpp 734-755) computes: the values of its reference
parameters `norm_J`, `norm_J_inverse`, `condition_number_estimate`, and that of its own copy of
`num_steps_since_last_condition_number_computation`, which is passed by value. -/
structure Norms (R : Type) where
  jac : R
  inv : R
  cond : Option R
  count : ℕ

/-- `SetNormsCond`, explicit_predictors.hpp 734-755. -/
def setNormsCond {R : Type} (mul : R → R → R) (e : Est R) (cond : Option R) (count freq : ℕ) :
    Norms R :=
  if freq ≤ count then ⟨e.jac, e.inv, some (mul e.jac e.inv), 1⟩
  else ⟨e.jac, e.inv, cond, count + 1⟩

/-- The two kinds of trackers; for the adaptive one, whether its predictor has an error estimate
(`HasErrorEstimate`, amp_tracker.hpp 1084, 1098). -/
inductive Kind
  | fixed
  | amp (embedded : Bool)

/-- What happens inside `TrackPath` or `Refine`, as far as it concerns these numbers. -/
inductive Ev (R : Type)
  /-- a prediction, successful or not: the two norm estimates (with different random vectors), the
  error estimate and the size proportion -/
  | predict (e1 e2 : Est R) (err prop : R)
  /-- a Newton iteration whose matrix could be factorised: norm estimates, and length of the step -/
  | newton (e : Est R) (dz : R)
  /-- a change of precision (adaptive only) -/
  | prec

/-- Effect of an event.

Fixed: `Predict` of explicit_predictors.hpp 457-476 as called in fixed_precision_tracker.hpp 299-314,
with local `norm_J`, `norm_J_inverse`; the corrector called in 328-339, 355-364, 386-396 is the one
without error outputs (newton_corrector.hpp 141-172).

Adaptive: `Predict` of explicit_predictors.hpp 503-547, which calls the other one first (so the norms
are estimated twice), 571-601 if there is an error estimate; the corrector of newton_corrector.hpp
268-318; `ChangePrecision`, amp_tracker.hpp 1313. -/
def Ev.act {R : Type} (mul : R → R → R) (freq : ℕ) (k : Kind) (s : Stats R) : Ev R → Stats R
  | .predict e1 e2 err prop =>
    match k with
    | .fixed => { s with cond := (setNormsCond mul e1 s.cond s.count freq).cond }
    | .amp embedded =>
      let n1 := setNormsCond mul e1 s.cond s.count freq
      let n2 := setNormsCond mul e2 n1.cond s.count freq
      { s with
        cond := n2.cond, jac := some n2.jac, inv := some n2.inv, prop := some prop,
        err := if embedded then some err else s.err }
  | .newton e dz =>
    match k with
    | .fixed => s
    | .amp _ => { s with
        dz := some dz, jac := some e.jac, inv := some e.inv, cond := some (mul e.jac e.inv) }
  | .prec =>
    match k with
    | .fixed => s
    | .amp _ => { s with count := freq }

/-- A use of the tracker: `TrackPath` (after `ResetCounters`, fixed_precision_tracker.hpp 95-102,
464, 549, amp_tracker.hpp 471, 494-502) or `Refine` (base_tracker.hpp 303-334), under the setting
`frequency_of_CN_estimation` (config.hpp 91) in force at the time. -/
inductive Use (R : Type)
  | track (freq : ℕ) (es : List (Ev R))
  | refine (freq : ℕ) (es : List (Ev R))

/-- Effect of a use. -/
def Use.act {R : Type} (mul : R → R → R) (k : Kind) (s : Stats R) : Use R → Stats R
  | .track freq es => es.foldl (Ev.act mul freq k) { s with count := freq }
  | .refine freq es => es.foldl (Ev.act mul freq k) s

/-- `LatestConditionNumber`, base_tracker.hpp 622-625. -/
def Stats.latestCond {R : Type} (s : Stats R) : Option R := s.cond

/-- `LatestErrorEstimate`, base_tracker.hpp 628-631. -/
def Stats.latestErr {R : Type} (s : Stats R) : Option R := s.err

/-- `LatestNormOfStep`, base_tracker.hpp 634-637. -/
def Stats.latestStep {R : Type} (s : Stats R) : Option R := s.dz

end B2.Track.Stat
