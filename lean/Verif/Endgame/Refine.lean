import Verif.Track.PropsCoherence

/-!
# Refining samples, and samples of uniform precision

Model of `AMPEndgame::RefineSampleImpl` (/repo/core/include/bertini2/endgames/amp_endgame.hpp 94-148),
`FixedPrecEndgame::RefineSampleImpl` (fixed_prec_endgame.hpp 77-90) and the functions
`EnsureAtUniformPrecision` (trackers/adaptive_precision_utilities.hpp,
trackers/fixed_precision_utilities.hpp).
-/

namespace B2.Endgame.Refine

open B2.Track.Coh

/-- The `SuccessCode`s that are told apart. -/
inductive Code
  | success
  | higherPrecisionNecessary
  | failedToConverge
  | other (n : ℕ)
deriving DecidableEq

variable {X : Type}

/-- What Newton's method (`corrector_->Correct`, newton_corrector.hpp 268-325) run by `Refine` does at
a precision, from a point, at a time: its code, and the point it has reached, which is written to the
result whatever the code is. -/
abbrev Newton (X : Type) := ℕ → X → X → Code × X

/-- `tracker.ChangePrecision(p)`; `none` if an assertion fails. amp_tracker.hpp 1303-1340. -/
def change? (R : ℕ → X → X) (p : ℕ) (s : Tk X) : Option (Tk X) :=
  if storedOk p s then some (changePrec R p s) else none

/-- `AMPEndgame::RefineSampleImpl`, amp_endgame.hpp 94-148. The sample is given by its value and the
precision of its coordinates (taken to be the same for all). `inPlace`: `result` and `current_sample`
are the same object, as in `RefineAllSamples` (base_endgame.hpp 173), so that the second attempt
starts where the first one stopped. -/
def ampRefine (R : ℕ → X → X) (N : Newton X) (inPlace : Bool) (x t : MP X) (s : Tk X) :
    Option (Code × MP X × Tk X) :=
  if x.prec ≠ t.prec then none
  else
    (change? R t.prec s).bind fun s =>
    (refine R t.prec [x.prec] s).bind fun s =>
    let r := N t.prec x.val t.val
    if r.1 = .higherPrecisionNecessary ∨ r.1 = .failedToConverge then
      let higher := max s.dflt 20 + 10
      (change? R higher { s with dflt := higher }).bind fun s =>
      let sample : X := R higher (if inPlace then r.2 else x.val)
      (refine R higher [higher] s).bind fun s =>
      let r2 := N higher sample (R higher t.val)
      some (r2.1, ⟨r2.2, higher⟩, s)
    else some (r.1, ⟨r.2, t.prec⟩, s)

/-- `FixedPrecEndgame::RefineSampleImpl`, fixed_prec_endgame.hpp 77-90: code and result. -/
def fixedRefine (N : Newton X) (x t : MP X) : Code × MP X :=
  let r := N x.prec x.val t.val
  (.success, ⟨r.2, x.prec⟩)

/-! ### Uniform precision

Times are given by their precisions, samples by the precisions of their coordinates. -/

/-- `Precision(v)` of a vector: that of the first coordinate; throws if there is none.
eigen_extensions.hpp 290-298. -/
def vecPrec : List ℕ → Option ℕ
  | [] => none
  | p :: _ => some p

/-- `std::any_of(samples, Precision(p) != d)`; stops at the first hit. -/
def anyOther (d : ℕ) : List (List ℕ) → Option Bool
  | [] => some false
  | v :: vs => (vecPrec v).bind fun p => if p ≠ d then some true else anyOther d vs

/-- `MaxPrecision(samples)`: by first coordinates; none: out of range access.
adaptive_precision_utilities.hpp 77-84. -/
def maxSamples : List (List ℕ) → Option ℕ
  | [] => some 0
  | v :: vs => (vecPrec v).bind fun p => (maxSamples vs).map (max p)

/-- `MaxPrecision(times)`, adaptive_precision_utilities.hpp 93-100. -/
def maxTimes (ts : List ℕ) : ℕ := ts.foldr max 0

/-- `SetPrecision` of times and samples, adaptive_precision_utilities.hpp 48-66. -/
def setTimes (p : ℕ) (ts : List ℕ) : List ℕ := ts.map fun _ => p
def setSamples (p : ℕ) (vs : List (List ℕ)) : List (List ℕ) := vs.map fun v => v.map fun _ => p

/-- Result of `EnsureAtUniformPrecision`: the returned precision, the default precision afterwards, and
the arguments. -/
structure Uni where
  ret : ℕ
  dflt : ℕ
  times : List ℕ
  samples : List (List ℕ)
  derivs : List (List ℕ)

/-- `adaptive::EnsureAtUniformPrecision(times, samples)`, adaptive_precision_utilities.hpp 129-146. -/
def ensure2 (d : ℕ) (ts : List ℕ) (vs : List (List ℕ)) : Option Uni :=
  (if ts.any (· ≠ d) then some true else anyOther d vs).bind fun b =>
  if b then
    (maxSamples vs).map fun m =>
      let p := max m (maxTimes ts)
      ⟨p, p, setTimes p ts, setSamples p vs, []⟩
  else some ⟨d, d, ts, vs, []⟩

/-- `adaptive::EnsureAtUniformPrecision(times, samples, derivatives)`,
adaptive_precision_utilities.hpp 160-177. The times are not looked at in the test. -/
def ensure3 (d : ℕ) (ts : List ℕ) (vs ds : List (List ℕ)) : Option Uni :=
  ((anyOther d vs).bind fun b => if b then some true else anyOther d ds).bind fun b =>
  if b then
    (maxSamples vs).bind fun m => (maxSamples ds).map fun m' =>
      let p := max (max m (maxTimes ts)) m'
      ⟨p, p, setTimes p ts, setSamples p vs, setSamples p ds⟩
  else some ⟨d, d, ts, vs, ds⟩

/-- `fixed::EnsureAtUniformPrecision(times, samples)`, fixed_precision_utilities.hpp 86-89: nothing is
changed. -/
def fixedEnsure2 (d : ℕ) (ts : List ℕ) (vs : List (List ℕ)) : Option Uni :=
  (maxSamples vs).map fun m => ⟨m, d, ts, vs, []⟩

/-- `fixed::EnsureAtUniformPrecision(times, samples, derivatives)`,
fixed_precision_utilities.hpp 94-98. -/
def fixedEnsure3 (d : ℕ) (ts : List ℕ) (vs ds : List (List ℕ)) : Option Uni :=
  (maxSamples vs).bind fun m => (maxSamples ds).map fun m' => ⟨max m m', d, ts, vs, ds⟩

end B2.Endgame.Refine
